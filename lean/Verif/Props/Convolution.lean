import Verif.Props.FFT
import Verif.Spec.Circular

/-!
# C108: convolutions, shifts and tones with the Fourier transform
-/

namespace DSP.FFT

open Spec

theorem unit_congr (s : ℤ) (N a b : ℕ) (h : a ≡ b [MOD N]) : unit s N a = unit s N b := by
  rw [← unit_mod, h, unit_mod]

/-- A sum over a period does not depend on where the period starts. -/
theorem sum_rotate (N a : ℕ) (f : ℕ → ℂ) : ∑ n ∈ Finset.range N, f ((n + a) % N) = ∑ n ∈ Finset.range N, f n := by
  rcases Nat.eq_zero_or_pos N with rfl | hN
  · simp
  have ha : a % N < N := Nat.mod_lt _ hN
  refine Finset.sum_nbij' (fun n => (n + a) % N) (fun n => (n + (N - a % N)) % N) (fun n _ => Finset.mem_range.mpr (Nat.mod_lt _ hN)) (fun n _ => Finset.mem_range.mpr (Nat.mod_lt _ hN)) (fun n hn => ?_) (fun n hn => ?_) (fun _ _ => rfl)
  · rw [Finset.mem_range] at hn
    have : (n + a) % N + (N - a % N) ≡ n [MOD N] := by
      have h1 : (n + a) % N + (N - a % N) ≡ n + a % N + (N - a % N) [MOD N] := Nat.ModEq.add_right _ ((Nat.mod_modEq _ _).trans (Nat.ModEq.add_left _ (Nat.mod_modEq _ _).symm))
      rw [Nat.add_assoc, Nat.add_sub_cancel' ha.le] at h1
      exact h1.trans (by simp [Nat.ModEq])
    rw [this, Nat.mod_eq_of_lt hn]
  · rw [Finset.mem_range] at hn
    have : (n + (N - a % N)) % N + a ≡ n [MOD N] := by
      have h1 : (n + (N - a % N)) % N + a ≡ n + (N - a % N) + a % N [MOD N] := Nat.ModEq.add (Nat.mod_modEq _ _) (Nat.mod_modEq _ _).symm
      rw [Nat.add_assoc, Nat.sub_add_cancel ha.le] at h1
      exact h1.trans (by simp [Nat.ModEq])
    rw [this, Nat.mod_eq_of_lt hn]

theorem shift_dft (s : ℤ) (N a j : ℕ) (hj : a + j = N) (y : ℕ → ℂ) (k : ℕ) : Spec.dft s N (fun n => y ((n + a) % N)) k = unit s N (j * k) * Spec.dft s N y k := by
  have : ∀ n, y ((n + a) % N) * unit s N (n * k) = (fun l => y l * unit s N ((l + j) * k)) ((n + a) % N) := fun n => by
    dsimp only
    congr 1
    refine unit_congr s N _ _ (Nat.ModEq.mul_right k ?_)
    have h : (n + a) % N + j ≡ n + a + j [MOD N] := Nat.ModEq.add_right _ (Nat.mod_modEq _ _)
    rw [Nat.add_assoc, hj] at h
    exact (h.trans (by simp [Nat.ModEq])).symm
  rw [Spec.dft, Finset.sum_congr rfl fun n _ => this n, sum_rotate N a (fun l => y l * unit s N ((l + j) * k)), Spec.dft, Finset.mul_sum]
  refine Finset.sum_congr rfl fun l _ => ?_
  rw [add_mul, unit_add]
  ring

theorem circular_dft (s : ℤ) (N : ℕ) (x y : ℕ → ℂ) (k : ℕ) : Spec.dft s N (circular N x y) k = Spec.dft s N x k * Spec.dft s N y k := by
  simp only [Spec.dft, circular]
  simp only [Finset.sum_mul]
  rw [Finset.sum_comm]
  refine Finset.sum_congr rfl fun j hj => ?_
  rw [Finset.mem_range] at hj
  have := shift_dft s N (N - j) j (by omega) y k
  simp only [Spec.dft] at this
  simp only [mul_assoc]
  rw [← Finset.mul_sum, this]

/-- The values of a list, zero behind its end. -/
theorem dft_getD (s : ℤ) (N : ℕ) (f : ℕ → ℂ) (k : ℕ) : Spec.dft s N (fun n => ((List.range N).map f).getD n 0) k = Spec.dft s N f k := by
  refine Finset.sum_congr rfl fun n hn => ?_
  rw [Finset.mem_range] at hn
  simp [List.getD_eq_getElem?_getD, hn]

section
variable (T : Trig ℝ) (hT : T.Exact) (s : ℤ) (hs : s = 1 ∨ s = -1) (N : ℕ) (hN : 0 < N) (hp : ∀ p, p.Prime → p ∣ N → p ≤ 31)
include hT hs hN hp

/-- **C108** The transform of the product of two transforms is the circular convolution, times the number of bins. -/
theorem C108_circular (o1 o2 o3 x y : List ℂ) (h1 : o1.length = N) (h2 : o2.length = N) (h3 : o3.length = N) (hx : x.length = N) (hy : y.length = N) :
    ∃ X Y, call T s N o1 x = .ok X ∧ call T s N o2 y = .ok Y ∧ call T (-s) N o3 (List.zipWith (· * ·) X Y) = .ok ((List.range N).map fun n => N * circular N (fun n => x.getD n 0) (fun n => y.getD n 0) n) := by
  refine ⟨_, _, C31_dft T hT s hs N hN hp o1 x (by omega) (by omega), C31_dft T hT s hs N hN hp o2 y (by omega) (by omega), ?_⟩
  rw [List.drop_of_length_le (by omega), List.drop_of_length_le (by omega), List.append_nil, List.append_nil]
  have e : List.zipWith (· * ·) ((List.range N).map (Spec.dft s N fun n => x.getD n 0)) ((List.range N).map (Spec.dft s N fun n => y.getD n 0)) = (List.range N).map (Spec.dft s N (circular N (fun n => x.getD n 0) (fun n => y.getD n 0))) := by
    rw [List.zipWith_map, List.zipWith_self]
    exact List.map_congr_left fun k _ => (circular_dft s N _ _ k).symm
  rw [e, C31_dft T hT (-s) (by omega) N hN hp o3 _ (by omega) (by simp), List.drop_of_length_le (by omega), List.append_nil]
  congr 1
  refine List.map_congr_left fun n hn => ?_
  rw [List.mem_range] at hn
  rw [dft_getD, dft_dft s hs N _ n hn]

/-- **C108** If there is enough room for the whole result, it is the product of polynomials: what filtering one of the lists by the other gives. -/
theorem C108_linear (o1 o2 o3 x y : List ℂ) (h1 : o1.length = N) (h2 : o2.length = N) (h3 : o3.length = N) (hxy : x.length + y.length ≤ N + 1) (hx : x ≠ []) (hy : y ≠ []) :
    ∃ X Y, call T s N o1 (x ++ List.replicate (N - x.length) 0) = .ok X ∧ call T s N o2 (y ++ List.replicate (N - y.length) 0) = .ok Y ∧
      call T (-s) N o3 (List.zipWith (· * ·) X Y) = .ok ((List.range N).map fun n => N * linear (fun n => x.getD n 0) (fun n => y.getD n 0) n) := by
  have lx := List.length_pos_of_ne_nil hx
  have ly := List.length_pos_of_ne_nil hy
  obtain ⟨X, Y, e1, e2, e3⟩ := C108_circular T hT s hs N hN hp o1 o2 o3 (x ++ List.replicate (N - x.length) 0) (y ++ List.replicate (N - y.length) 0) h1 h2 h3 (by simp; omega) (by simp; omega)
  refine ⟨X, Y, e1, e2, e3.trans ?_⟩
  congr 1
  refine List.map_congr_left fun n hn => ?_
  rw [List.mem_range] at hn
  congr 1
  have pad : ∀ (z : List ℂ) (k : ℕ), (z ++ List.replicate (N - z.length) 0).getD k 0 = z.getD k 0 := fun z k => by
    rw [List.getD_eq_getElem?_getD, List.getD_eq_getElem?_getD]
    by_cases c : k < z.length
    · rw [List.getElem?_append_left c]
    · rw [List.getElem?_append_right (by omega), List.getElem?_eq_none (by omega : z.length ≤ k)]
      by_cases d : k - z.length < N - z.length
      · rw [List.getElem?_replicate, if_pos d]; rfl
      · rw [List.getElem?_replicate, if_neg d]
  have none : ∀ (z : List ℂ) (k : ℕ), z.length ≤ k → z.getD k 0 = 0 := fun z k h => by
    rw [List.getD_eq_getElem?_getD, List.getElem?_eq_none h]; rfl
  simp only [circular, linear, pad]
  rw [← Finset.sum_subset (Finset.range_subset_range.mpr (by omega : n + 1 ≤ N)) fun k hk hk' => ?_]
  · refine Finset.sum_congr rfl fun k hk => ?_
    rw [Finset.mem_range] at hk
    rw [show n + (N - k) = n - k + N by omega, Nat.add_mod_right, Nat.mod_eq_of_lt (by omega)]
  · rw [Finset.mem_range] at hk hk'
    by_cases c : x.length ≤ k
    · rw [none x k c, zero_mul]
    · rw [Nat.mod_eq_of_lt (by omega), none y _ (by omega), mul_zero]

/-- **C108** A circular shift by `j` turns bin `k` by `k` times `j` over the number of bins. -/
theorem C108_shift (o1 o2 x : List ℂ) (h1 : o1.length = N) (h2 : o2.length = N) (hx : x.length = N) (j : ℕ) (hj : j ≤ N) :
    ∃ X, call T s N o1 x = .ok X ∧ call T s N o2 (x.rotate (N - j)) = .ok (X.zipIdx.map fun v => unit s N (j * v.2) * v.1) := by
  refine ⟨_, C31_dft T hT s hs N hN hp o1 x (by omega) (by omega), ?_⟩
  rw [C31_dft T hT s hs N hN hp o2 _ (by omega) (by simp [hx]), List.drop_of_length_le (by omega), List.drop_of_length_le (by omega), List.append_nil, List.append_nil]
  congr 1
  refine List.ext_getElem (by simp) fun k hk1 hk2 => ?_
  have hk : k < N := by simpa using hk1
  simp only [List.getElem_map, List.getElem_range, List.getElem_zipIdx, Nat.zero_add]
  rw [← shift_dft s N (N - j) j (by omega)]
  refine Finset.sum_congr rfl fun n hn => ?_
  rw [Finset.mem_range] at hn
  congr 1
  dsimp only
  rw [List.getD_eq_getElem?_getD, List.getD_eq_getElem?_getD, List.getElem?_rotate (by omega), hx]

/-- **C108** A tone at the frequency of a bin is in this bin only. -/
theorem C108_tone (o : List ℂ) (h1 : o.length = N) (c : ℂ) (j : ℕ) (hj : j < N) :
    call T s N o ((List.range N).map fun n => c * unit (-s) N (j * n)) = .ok ((List.range N).map fun k => if k = j then N * c else 0) := by
  rw [C31_dft T hT s hs N hN hp o _ (by omega) (by simp), List.drop_of_length_le (by omega), List.append_nil]
  congr 1
  refine List.map_congr_left fun k hk => ?_
  rw [List.mem_range] at hk
  have e : (fun n => c * unit (-s) N (j * n)) = Spec.dft (-s) N (fun n => if n = j then c else 0) := by
    funext n
    rw [Spec.dft, Finset.sum_eq_single_of_mem j (Finset.mem_range.mpr hj) fun i _ hi => by rw [if_neg hi, zero_mul], if_pos rfl]
  have := dft_dft (-s) (by omega) N (fun n => if n = j then c else 0) k hk
  rw [neg_neg] at this
  rw [dft_getD, e, this, mul_ite, mul_zero]

end

/-- The product of two polynomials with six coefficients each. -/
example (x y : List ℂ) (hx : x.length = 6) (hy : y.length = 6) : ∃ X Y, call Trig.real (-1) 12 (List.replicate 12 0) (x ++ List.replicate 6 0) = .ok X ∧ call Trig.real (-1) 12 (List.replicate 12 0) (y ++ List.replicate 6 0) = .ok Y ∧
    call Trig.real 1 12 (List.replicate 12 0) (List.zipWith (· * ·) X Y) = .ok ((List.range 12).map fun n => (12 : ℕ) * linear (fun n => x.getD n 0) (fun n => y.getD n 0) n) := by
  have := C108_linear _ Trig.real_exact (-1) (Or.inr rfl) 12 (by norm_num) smooth_12 (List.replicate 12 0) (List.replicate 12 0) (List.replicate 12 0) x y (by simp) (by simp) (by simp) (by omega)
    (by rintro rfl; simp at hx) (by rintro rfl; simp at hy)
  rwa [hx, hy] at this

/-- The fifth of twelve bins. -/
example : call Trig.real (-1) 12 (List.replicate 12 7) ((List.range 12).map fun n => 3 * unit 1 12 (5 * n)) = .ok [0, 0, 0, 0, 0, 36, 0, 0, 0, 0, 0, 0] := by
  have := C108_tone _ Trig.real_exact (-1) (Or.inr rfl) 12 (by norm_num) smooth_12 (List.replicate 12 7) (by simp) 3 5 (by norm_num)
  rw [neg_neg] at this
  rw [this]
  norm_num [List.range, List.range.loop]

end DSP.FFT
