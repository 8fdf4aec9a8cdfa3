import Verif.Model.Pnm
import Verif.Spec.Pnm
import Verif.Lemmas.Base

/-! Property C25: Netpbm headers. -/

namespace DSP
open Pnm Spec.Pnm

namespace Pnm

/-- The scanner has just read the first character of `l`, which is the rest of the file. -/
def At (data : List Byte) (c : Int) (s : IStream) (l : List Byte) : Prop :=
  ∃ b t pos, l = b :: t ∧ c = (b.toNat : Int) ∧ s = ⟨data, pos, true⟩ ∧ data.drop pos = t ∧ pos + t.length = data.length

theorem get_at {data : List Byte} {pos : Nat} {b : Byte} {t : List Byte} (h : data.drop pos = b :: t) (hp : pos + (t.length + 1) = data.length) :
    At data (get ⟨data, pos, true⟩).1 (get ⟨data, pos, true⟩).2 (b :: t) := by
  have hb : data[pos]? = some b := by have := congrArg (fun l => l[0]?) h; simpa using this
  have ht : data.drop (pos + 1) = t := by have := congrArg List.tail h; simpa using this
  refine ⟨b, t, pos + 1, rfl, ?_, ?_, ht, by omega⟩
  · simp only [get, IStream.get, hb, if_true]
    rw [BitVec.toInt_eq_toNat_of_lt]
    · simp [BitVec.toNat_setWidth]; omega
    · simp [BitVec.toNat_setWidth]; omega
  · simp [get, IStream.get, hb]

theorem At.next {data : List Byte} {c : Int} {s : IStream} {x y : Byte} {t : List Byte} (h : At data c s (x :: y :: t)) :
    At data (get s).1 (get s).2 (y :: t) := by
  obtain ⟨b, t', pos, h1, h2, h3, h4, h5⟩ := h
  cases h1
  subst h3
  exact get_at h4 h5

theorem At.val {data : List Byte} {c : Int} {s : IStream} {x : Byte} {t : List Byte} (h : At data c s (x :: t)) : c = (x.toNat : Int) := by
  obtain ⟨b, t', pos, h1, h2, h3, h4, h5⟩ := h
  cases h1; exact h2

theorem At.ok {data : List Byte} {c : Int} {s : IStream} {l : List Byte} (h : At data c s l) : s.ok = true ∧ s.data = data ∧ l.length ≤ data.length + 1 := by
  obtain ⟨b, t', pos, h1, h2, h3, h4, h5⟩ := h
  subst h3 h1; refine ⟨rfl, rfl, ?_⟩
  simp; omega

theorem space_iff (b : Byte) : space (b.toNat : Int) = true ↔ IsSpace b := by
  simp only [space, IsSpace, Bool.or_eq_true, beq_iff_eq, BitVec.toNat_eq, show (BitVec.toNat (32 : BitVec 8)) = 32 from rfl,
    show (BitVec.toNat (10 : BitVec 8)) = 10 from rfl, show (BitVec.toNat (9 : BitVec 8)) = 9 from rfl]
  omega

theorem digit_iff (b : Byte) : digit (b.toNat : Int) = true ↔ IsDigit b := by
  simp only [digit, IsDigit, Bool.and_eq_true, decide_eq_true_eq]
  omega

theorem spaces_at {data : List Byte} {x : Byte} {t : List Byte} (hx : ¬ IsSpace x) :
    ∀ (sp : List Byte) (fuel : Nat) (c : Int) (s : IStream), (∀ b ∈ sp, IsSpace b) → sp.length ≤ fuel → At data c s (sp ++ x :: t) →
      ∃ c' s', spaces fuel c s = .ok (c', s') ∧ At data c' s' (x :: t) := by
  intro sp
  induction sp with
  | nil =>
    intro fuel c s _ _ h
    have : space c = false := by rw [h.val]; rw [← space_iff] at hx; simpa using hx
    exact ⟨c, s, by unfold spaces; simp [this], h⟩
  | cons b sp ih =>
    intro fuel c s hsp hf h
    obtain ⟨fuel, rfl⟩ : ∃ k, fuel = k + 1 := ⟨fuel - 1, by simp at hf; omega⟩
    have hc : space c = true := by rw [h.val, space_iff]; exact hsp b (by simp)
    have hn : At data (get s).1 (get s).2 (sp ++ x :: t) := by
      cases sp with
      | nil => exact h.next
      | cons y sp => exact h.next
    obtain ⟨c', s', h1, h2⟩ := ih fuel _ _ (fun b hb => hsp b (by simp [hb])) (by simpa using hf) hn
    exact ⟨c', s', by unfold spaces; simp only [hc, if_true]; exact h1, h2⟩

theorem skipLine_at {data : List Byte} {y : Byte} {t : List Byte} :
    ∀ (text : List Byte) (x : Byte) (fuel : Nat) (c : Int) (s : IStream), 10 ∉ text → text.length < fuel → At data c s (x :: (text ++ 10 :: y :: t)) →
      ∃ c' s', skipLine fuel s = .ok s' ∧ At data c' s' (10 :: y :: t) := by
  intro text
  induction text with
  | nil =>
    intro x fuel c s _ hf h
    obtain ⟨fuel, rfl⟩ : ∃ k, fuel = k + 1 := ⟨fuel - 1, by simp at hf; omega⟩
    have hn := h.next
    refine ⟨_, _, ?_, hn⟩
    unfold skipLine
    have : newline (get s).1 = true := by rw [hn.val]; rfl
    simp [h.ok.1, this]
  | cons b text ih =>
    intro x fuel c s ht hf h
    obtain ⟨fuel, rfl⟩ : ∃ k, fuel = k + 1 := ⟨fuel - 1, by simp at hf; omega⟩
    have hn := h.next
    simp only [List.mem_cons, not_or] at ht
    have : newline (get s).1 = false := by
      rw [hn.val]
      have := ht.1
      simp only [newline, beq_eq_false_iff_ne, ne_eq]
      intro h; apply this; apply BitVec.eq_of_toNat_eq; simp; omega
    obtain ⟨c', s', h1, h2⟩ := ih b fuel _ _ ht.2 (by simpa using hf) hn
    refine ⟨c', s', ?_, h2⟩
    unfold skipLine
    simp only [h.ok.1, if_true, this]
    exact h1

theorem comments_at {data : List Byte} {x : Byte} {t : List Byte} (hx : x ≠ 35) :
    ∀ (texts : List (List Byte)) (fuel : Nat) (c : Int) (s : IStream), (∀ t ∈ texts, 10 ∉ t) → texts.length ≤ fuel →
      At data c s ((texts.map comment).flatten ++ x :: t) →
      ∃ c' s', comments fuel c s = .ok (c', s') ∧ At data c' s' (x :: t) := by
  intro texts
  induction texts with
  | nil =>
    intro fuel c s _ _ h
    refine ⟨c, s, ?_, h⟩
    have : c ≠ 35 := by
      rw [(show At data c s (x :: t) from h).val]; intro h; apply hx; apply BitVec.eq_of_toNat_eq; simp; omega
    unfold comments; simp [this]
  | cons a texts ih =>
    intro fuel c s ht hf h
    obtain ⟨fuel, rfl⟩ : ∃ k, fuel = k + 1 := ⟨fuel - 1, by simp at hf; omega⟩
    obtain ⟨y, t', hy⟩ : ∃ y t', (texts.map comment).flatten ++ x :: t = y :: t' := by
      cases hl : (texts.map comment).flatten ++ x :: t with
      | nil => simp at hl
      | cons y t' => exact ⟨y, t', rfl⟩
    have h' : At data c s (35 :: (a ++ 10 :: y :: t')) := by
      rw [← hy]; simpa [comment] using h
    have hlen := h'.ok.2.2
    simp only [List.length_cons, List.length_append] at hlen
    obtain ⟨c1, s1, h1, h2⟩ := skipLine_at a 35 (s.data.length + 1) c s (ht a (by simp)) (by rw [h'.ok.2.1]; omega) h'
    have hn := h2.next
    rw [← hy] at hn
    obtain ⟨c', s', h3, h4⟩ := ih fuel _ _ (fun t ht' => ht t (by simp [ht'])) (by simpa using hf) hn
    refine ⟨c', s', ?_, h4⟩
    unfold comments
    have hc : c = 35 := h'.val
    simp only [hc, if_true, h1, bind, Except.bind]
    exact h3

theorem digits_at {data : List Byte} {e : Byte} {t : List Byte} (he : ¬ IsDigit e) :
    ∀ (ds : List Byte) (fuel : Nat) (n : Nat) (c : Int) (s : IStream), (∀ b ∈ ds, IsDigit b) → ds.length ≤ fuel →
      ds.foldl (fun n d => 10 * n + (d.toNat - 48)) n ≤ 2147483647 → At data c s (ds ++ e :: t) →
      ∃ c' s', digits fuel n c s = .ok ((ds.foldl (fun n d => 10 * n + (d.toNat - 48)) n : Nat), c', s') ∧ At data c' s' (e :: t) := by
  intro ds
  induction ds with
  | nil =>
    intro fuel n c s _ _ _ h
    have : digit c = false := by rw [h.val]; rw [← digit_iff] at he; simpa using he
    exact ⟨c, s, by unfold digits; simp [this], h⟩
  | cons b ds ih =>
    intro fuel n c s hds hf hv h
    obtain ⟨fuel, rfl⟩ : ∃ k, fuel = k + 1 := ⟨fuel - 1, by simp at hf; omega⟩
    have hb := hds b (by simp)
    have hc : digit c = true := by rw [h.val, digit_iff]; exact hb
    have hn : At data (get s).1 (get s).2 (ds ++ e :: t) := by
      cases ds with
      | nil => exact h.next
      | cons y ds => exact h.next
    have mono : ∀ (l : List Byte) (a : Nat), a ≤ l.foldl (fun n d => 10 * n + (d.toNat - 48)) a := by
      intro l
      induction l with
      | nil => intro a; simp
      | cons x l ih => intro a; refine le_trans ?_ (ih _); simp only; omega
    rw [List.foldl_cons] at hv
    have hm := mono ds (10 * n + (b.toNat - 48))
    obtain ⟨c', s', h1, h2⟩ := ih fuel (10 * n + (b.toNat - 48)) _ _ (fun b hb => hds b (by simp [hb])) (by simpa using hf) hv hn
    refine ⟨c', s', ?_, h2⟩
    unfold digits
    have hval : (10 * (n : Int) + value c) = ((10 * n + (b.toNat - 48) : Nat) : Int) := by
      rw [h.val, value]; have := hb.1; push_cast [this]; ring
    have i1 : int32 (10 * (n : Int)) = .ok (10 * (n : Int)) := by unfold int32; rw [if_pos]; omega
    have i2 : int32 (10 * (n : Int) + value c) = .ok ((10 * n + (b.toNat - 48) : Nat) : Int) := by
      rw [hval]; unfold int32; rw [if_pos]; omega
    simp only [hc, if_true, i1, i2, bind, Except.bind]
    exact h1

theorem digit_not_space {b : Byte} (h : IsDigit b) : ¬ IsSpace b := by
  rintro (rfl | rfl | rfl) <;> simp [IsDigit] at h
theorem space_not_digit {b : Byte} (h : IsSpace b) : ¬ IsDigit b := fun h' => digit_not_space h' h

theorem number_at {data : List Byte} {e : Byte} {sep ds t : List Byte} {c : Int} {s : IStream} (hsep : Separator sep) (hds : Number ds)
    (he : IsSpace e) (h : At data c s (sep ++ (ds ++ e :: t))) :
    ∃ c' s', number c s = .ok ((decVal ds : Nat), c', s') ∧ At data c' s' (e :: t) := by
  obtain ⟨d, ds', rfl⟩ : ∃ d ds', ds = d :: ds' := by
    cases ds with
    | nil => exact absurd rfl hds.pos
    | cons d ds' => exact ⟨d, ds', rfl⟩
  have hd : IsDigit d := hds.digits d (by simp)
  have hlen := h.ok.2.2
  simp only [List.length_append, List.length_cons] at hlen
  -- the part behind the separator
  have fin : ∀ (c : Int) (s : IStream), At data c s ((d :: ds') ++ e :: t) →
      ∃ c' s', digits (s.data.length + 1) 0 c s = .ok ((decVal (d :: ds') : Nat), c', s') ∧ At data c' s' (e :: t) := by
    intro c s h
    exact digits_at (space_not_digit he) (d :: ds') _ 0 c s hds.digits (by rw [h.ok.2.1]; simp; omega) hds.small h
  cases hsep with
  | blanks c0 l h1 h2 h3 =>
    have hc : newline c = false := by
      rw [h.val]; simp only [newline, beq_eq_false_iff_ne, ne_eq]
      intro h; apply h2; apply BitVec.eq_of_toNat_eq; simp; omega
    simp only [List.length_cons] at hlen
    obtain ⟨c1, s1, e1, a1⟩ := spaces_at (digit_not_space hd) (c0 :: l) (s.data.length + 1) c s (by simpa using ⟨h1, h3⟩)
      (by rw [h.ok.2.1]; simp; omega) (by simpa using h)
    obtain ⟨c2, s2, e2, a2⟩ := fin c1 s1 (by simpa using a1)
    refine ⟨c2, s2, ?_, a2⟩
    simp only [number, M.ite, hc, bind, Except.bind]
    rw [if_neg (by simp)]
    simp only [e1]
    exact e2
  | lines texts l h1 h2 =>
    have hc : newline c = true := by rw [h.val]; rfl
    have h0 : At data c s (10 :: ((texts.map comment).flatten ++ (l ++ d :: (ds' ++ e :: t)))) := by simpa using h
    obtain ⟨x, t', hx, hx35⟩ : ∃ x t', l ++ d :: (ds' ++ e :: t) = x :: t' ∧ x ≠ 35 := by
      cases l with
      | nil => exact ⟨d, _, rfl, by rintro rfl; simp [IsDigit] at hd⟩
      | cons x l =>
        refine ⟨x, _, rfl, ?_⟩
        rintro rfl; have := h2 35 (by simp); simp [IsSpace] at this
    have hflat : ∀ l : List (List Byte), l.length ≤ (l.map comment).flatten.length := by
      intro l
      induction l with
      | nil => simp
      | cons a l ih => simp [comment]; simp at ih; omega
    have hfl := hflat texts
    have hn : At data (get s).1 (get s).2 ((texts.map comment).flatten ++ x :: t') := by
      rw [hx] at h0
      cases hl : (texts.map comment).flatten ++ x :: t' with
      | nil => simp at hl
      | cons y t'' => rw [hl] at h0; exact h0.next
    simp only [List.length_cons, List.length_append] at hlen
    obtain ⟨c1, s1, e1, a1⟩ := comments_at hx35 texts ((get s).2.data.length + 1) _ _ h1 (by rw [hn.ok.2.1]; omega) hn
    rw [← hx] at a1
    obtain ⟨c2, s2, e2, a2⟩ := spaces_at (digit_not_space hd) l (s1.data.length + 1) c1 s1 h2 (by rw [a1.ok.2.1]; omega) a1
    obtain ⟨c3, s3, e3, a3⟩ := fin c2 s2 (by simpa using a2)
    refine ⟨c3, s3, ?_, a3⟩
    simp only [number, M.ite, hc, bind, Except.bind]
    simp only [decide_true, if_true, e1, e2]
    exact e3

end Pnm

/-- **C25** Every header made of `P5` or `P6`, three numbers with separators (white space, comment lines) in front of each and one
white space character behind is understood: the numbers are recovered and the next byte read is the first pixel byte. -/
theorem C25_parse {m : Byte} (hm : m = 53 ∨ m = 54) {s1 s2 s3 d1 d2 d3 : List Byte} {e : Byte} (h1 : Separator s1) (h2 : Separator s2)
    (h3 : Separator s3) (n1 : Number d1) (n2 : Number d2) (n3 : Number d3) (he : IsSpace e) (body : List Byte) :
    let header := [80, m] ++ s1 ++ d1 ++ s2 ++ d2 ++ s3 ++ d3 ++ [e]
    Reader.open (header ++ body) = .ok
      { is := ⟨header ++ body, header.length, true⟩, mono := some (decide (m = 53)), width := some (decVal d1),
        height := some (decVal d2), maxval := some (decVal d3) } := by
  intro header
  obtain ⟨data, hdata⟩ : ∃ data, data = header ++ body := ⟨_, rfl⟩
  have hl : data = 80 :: m :: (s1 ++ (d1 ++ (s2 ++ (d2 ++ (s3 ++ (d3 ++ e :: body)))))) := by simp [hdata, header]
  have a0 : At data (get (IStream.open data)).1 (get (IStream.open data)).2 (80 :: m :: (s1 ++ (d1 ++ (s2 ++ (d2 ++ (s3 ++ (d3 ++ e :: body))))))) :=
    get_at (data := data) (pos := 0) (by simpa using hl) (by rw [hl]; simp)
  have a1 := a0.next
  have sepc : ∀ {s : List Byte}, Separator s → ∃ c t, s = c :: t ∧ IsSpace c := by
    intro s hs
    cases hs with
    | blanks c l h _ _ => exact ⟨c, l, rfl, h⟩
    | lines texts l _ _ => exact ⟨10, _, rfl, .inr (.inl rfl)⟩
  obtain ⟨c1, t1, rfl, hc1⟩ := sepc h1
  obtain ⟨c2, t2, rfl, hc2⟩ := sepc h2
  obtain ⟨c3, t3, rfl, hc3⟩ := sepc h3
  have a2 := a1.next
  obtain ⟨x1, r1, e1, b1⟩ := number_at h1 n1 (t := t2 ++ (d2 ++ (c3 :: t3 ++ (d3 ++ e :: body)))) hc2 (by simpa using a2)
  obtain ⟨x2, r2, e2, b2⟩ := number_at h2 n2 (t := t3 ++ (d3 ++ e :: body)) hc3 (by simpa using b1)
  obtain ⟨x3, r3, e3, b3⟩ := number_at h3 n3 (t := body) he (by simpa using b2)
  have sp0 : space (get (get (get (IStream.open data)).2).2).1 = true := by rw [a2.val, space_iff]; exact hc1
  have sp3 : space x3 = true := by rw [b3.val, space_iff]; exact he
  have hr3 : r3 = ⟨data, header.length, true⟩ := by
    obtain ⟨b, t, pos, h1, h2, h3, h4, h5⟩ := b3
    cases h1
    have : header.length + body.length = data.length := by rw [hdata]; simp
    rw [h3]; congr 1; omega
  have hf : ∀ mono, Reader.fields mono (get (get (IStream.open data)).2).2 = .ok
      { is := ⟨data, header.length, true⟩, mono := some mono, width := some (decVal d1), height := some (decVal d2), maxval := some (decVal d3) } := by
    intro mono
    simp only [Reader.fields, sp0, e1, e2, e3, sp3, hr3, bind, Except.bind, pure, Except.pure]
    simp
  rw [← hdata]
  have v0 : (get (IStream.open data)).1 = 80 := a0.val
  have v1 : (get (get (IStream.open data)).2).1 = (m.toNat : Int) := a1.val
  have hdig : digit (m.toNat : Int) = true := by rcases hm with rfl | rfl <;> rfl
  simp only [Reader.open, v0, v1, hdig, ne_eq, not_true, if_false, Bool.true_eq_false]
  rcases hm with rfl | rfl
  · rw [if_pos (by rfl), hf]; rfl
  · rw [if_neg (by decide), if_pos (by rfl), hf]; rfl

/-- A header with two comment lines, the second of which is empty. -/
example : Separator (10 :: (([[0x68, 0x69], []] : List (List Byte)).map comment).flatten ++ [32]) :=
  .lines [[0x68, 0x69], []] [32] (by simp) (by simp [IsSpace])
example : Number [49, 50] ∧ decVal [49, 50] = 12 := ⟨⟨by simp, by simp [IsDigit], by decide⟩, by decide⟩
example : (Reader.open ([80, 54, 10, 35, 0x68, 0x69, 10, 35, 10, 32, 49, 50, 32, 51, 10, 35, 10, 55, 10] ++ [1, 2, 3])).map
    (fun r => (r.is.pos, r.mono, r.width, r.height, r.maxval)) = .ok (19, some false, some 12, some 3, some 7) := by decide +kernel

namespace Pnm

theorem decimal_digits (n : Nat) : decimal n ≠ [] ∧ ∀ d ∈ decimal n, IsDigit d := by
  induction n using Nat.strongRecOn with
  | _ n ih =>
    have dig : ∀ k, k < 10 → IsDigit (BitVec.ofNat 8 (48 + k)) := by
      intro k hk; simp [IsDigit]; omega
    unfold decimal
    split_ifs with h
    · exact ⟨by simp, by intro d hd; rw [List.mem_singleton] at hd; rw [hd]; exact dig n h⟩
    · have := ih (n / 10) (by omega)
      refine ⟨by simp, ?_⟩
      intro d hd
      rw [List.mem_append, List.mem_singleton] at hd
      rcases hd with hd | hd
      · exact this.2 d hd
      · rw [hd]; exact dig _ (by omega)

theorem decimal_val (n : Nat) : decVal (decimal n) = n := by
  induction n using Nat.strongRecOn with
  | _ n ih =>
    unfold decimal
    have dig : ∀ k, k < 10 → (BitVec.ofNat 8 (48 + k)).toNat - 48 = k := by
      intro k hk; simp; omega
    split_ifs with h
    · simp only [decVal, List.foldl_cons, List.foldl_nil]; rw [dig n h]; omega
    · have := ih (n / 10) (by omega)
      rw [decVal] at this ⊢
      rw [List.foldl_append, this]
      simp only [List.foldl_cons, List.foldl_nil]
      rw [dig _ (by omega)]
      omega

theorem decimal_number {n : Nat} (h : n ≤ 2147483647) : Number (decimal n) :=
  ⟨(decimal_digits n).1, (decimal_digits n).2, by rw [decimal_val]; exact h⟩

end Pnm

/-- **C25** What `WritePNM` writes is understood by `ReadPNM`: size, maximal value and colour mode are recovered and the next byte
read is the first pixel byte, whatever it is. -/
theorem C25_roundtrip (width height maxval : Nat) (hw : width ≤ 2147483647) (hh : height ≤ 2147483647) (hm : maxval ≤ 2147483647)
    (mono : Bool) (body : List Byte) :
    let header := (Writer.open width height mono maxval).2
    Reader.open (header ++ body) = .ok
      { is := ⟨header ++ body, header.length, true⟩, mono := some mono, width := some width, height := some height,
        maxval := some maxval } := by
  intro header
  have hp : ∀ n : Nat, putInt n = decimal n := by
    intro n; unfold putInt; rw [if_neg (by omega)]; simp
  have sp : Separator [32] := .blanks 32 [] (.inl rfl) (by decide) (by simp)
  have := C25_parse (m := if mono then 53 else 54) (by cases mono <;> simp) sp sp sp (decimal_number hw) (decimal_number hh) (decimal_number hm)
    (e := 10) (.inr (.inl rfl)) body
  simp only at this
  have he : header = [80, if mono then 53 else 54] ++ [32] ++ decimal width ++ [32] ++ decimal height ++ [32] ++ decimal maxval ++ [10] := by
    have h5 : putInt 5 = [53] := by decide +kernel
    have h6 : putInt 6 = [54] := by decide +kernel
    simp only [header, Writer.open, hp]
    cases mono <;> simp [h5, h6]
  rw [he, this]
  simp only [decimal_val]
  cases mono <;> rfl

example : (Writer.open 640 480 true).2 = [80, 53, 32, 54, 52, 48, 32, 52, 56, 48, 32, 50, 53, 53, 10] := by decide +kernel

/-- Finding: a comment is recognised only directly behind the first newline. Behind an empty line or a blank it makes the
constructor give up; the width stays unset while `good()` holds. -/
theorem C25_comment_position :
    (Reader.open [80, 54, 10, 10, 35, 10, 49, 32, 49, 32, 49, 10]).map (fun r => (r.good, r.width)) = .ok (true, none) ∧
    (Reader.open [80, 54, 32, 35, 10, 49, 32, 49, 32, 49, 10]).map (fun r => (r.good, r.width)) = .ok (true, none) := by decide +kernel

/-- Finding: the format letter is rejected without a trace, and the next `read` looks at a member that was never set. -/
theorem C25_rejection_invisible {α : Type} (lin : Int → Int → α) (buf : List α) (num : Int) :
    ∃ data : List Byte, ∃ r, Reader.open data = .ok r ∧ r.good = true ∧ r.read lin buf num = .error .uninit :=
  ⟨[80, 55, 10, 10], _, rfl, rfl, rfl⟩

/-- Finding: a long digit string overflows `int`. -/
theorem C25_overflow : Reader.open ([80, 53, 32] ++ List.replicate 10 57 ++ [32, 49, 32, 49, 32]) = .error .overflow := by decide +kernel

end DSP
