import Mathlib.Data.Nat.Notation

/-!
# C41: the CORDIC arcus tangent with 8 bits

All pairs of operands are run through a copy of the loop on natural numbers, and the direction found is compared with the operands.
-/

namespace DSP.Cordic

/-- The loop on natural numbers: `a` is the angle plus 1024, `R` and `I` are real and imaginary part plus 2 ^ 20. -/
def go : List (ℕ × ℕ × ℕ) → ℕ → ℕ → ℕ → ℕ
  | [], a, _, _ => a
  | (p, b, l) :: t, a, R, I => match Nat.ble 1048576 I with
    | true => go t (Nat.add a l) (Nat.sub (Nat.add R (Nat.div I p)) b) (Nat.sub (Nat.add I b) (Nat.div R p))
    | false => go t (Nat.sub a l) (Nat.sub (Nat.add R b) (Nat.div I p)) (Nat.sub (Nat.add I (Nat.div R p)) b)

/-- The loop for the vector with the parts `x` and `y - 128`. -/
def found (y x : ℕ) : ℕ := go [(1, 1048576, 64), (2, 524288, 38), (4, 262144, 20), (8, 131072, 10), (16, 65536, 5), (32, 32768, 3), (64, 16384, 1), (128, 8192, 1)]
  1024 (Nat.add 1048576 (Nat.mul x 2)) (Nat.sub (Nat.add 1048576 (Nat.mul y 2)) 256)

/-- Cosine and sine of the multiples of a 256th of a turn, times 2 ^ 30, plus 2 ^ 30. -/
def circle : List (List (ℕ × ℕ)) := [
  [(2147483648, 1073741824), (2147160257, 1100092767), (2146190279, 1126427838), (2144574298, 1152731173), (2142313288, 1178986927), (2139408610, 1205179286), (2135862014, 1231292471), (2131675637, 1257310754), (2126852000, 1283218462), (2121394009, 1308999989), (2115304951, 1334639806), (2108588495, 1360122467), (2101248686, 1385432623), (2093289945, 1410555028), (2084717066, 1435474550), (2075535214, 1460176177)],
  [(2065749918, 1484645031), (2055367075, 1508866372), (2044392936, 1532825610), (2032834114, 1556508313), (2020697571, 1579900216), (2007990617, 1602987228), (1994720906, 1625755442), (1980896432, 1648191144), (1966525522, 1670280819), (1951616833, 1692011162), (1936179344, 1713369082), (1920222355, 1734341714), (1903755478, 1754916426), (1886788632, 1775080824), (1869332037, 1794822761), (1851396208, 1814130346)],
  [(1832991949, 1832991949), (1814130346, 1851396208), (1794822761, 1869332037), (1775080824, 1886788632), (1754916426, 1903755478), (1734341714, 1920222355), (1713369082, 1936179344), (1692011162, 1951616833), (1670280819, 1966525522), (1648191144, 1980896432), (1625755442, 1994720906), (1602987228, 2007990617), (1579900216, 2020697571), (1556508313, 2032834114), (1532825610, 2044392936), (1508866372, 2055367075)],
  [(1484645031, 2065749918), (1460176177, 2075535214), (1435474550, 2084717066), (1410555028, 2093289945), (1385432623, 2101248686), (1360122467, 2108588495), (1334639806, 2115304951), (1308999989, 2121394009), (1283218462, 2126852000), (1257310754, 2131675637), (1231292471, 2135862014), (1205179286, 2139408610), (1178986927, 2142313288), (1152731173, 2144574298), (1126427838, 2146190279), (1100092767, 2147160257)],
  [(1073741824, 2147483648), (1047390881, 2147160257), (1021055810, 2146190279), (994752475, 2144574298), (968496721, 2142313288), (942304362, 2139408610), (916191177, 2135862014), (890172894, 2131675637), (864265186, 2126852000), (838483659, 2121394009), (812843842, 2115304951), (787361181, 2108588495), (762051025, 2101248686), (736928620, 2093289945), (712009098, 2084717066), (687307471, 2075535214)],
  [(662838617, 2065749918), (638617276, 2055367075), (614658038, 2044392936), (590975335, 2032834114), (567583432, 2020697571), (544496420, 2007990617), (521728206, 1994720906), (499292504, 1980896432), (477202829, 1966525522), (455472486, 1951616833), (434114566, 1936179344), (413141934, 1920222355), (392567222, 1903755478), (372402824, 1886788632), (352660887, 1869332037), (333353302, 1851396208)],
  [(314491699, 1832991949), (296087440, 1814130346), (278151611, 1794822761), (260695016, 1775080824), (243728170, 1754916426), (227261293, 1734341714), (211304304, 1713369082), (195866815, 1692011162), (180958126, 1670280819), (166587216, 1648191144), (152762742, 1625755442), (139493031, 1602987228), (126786077, 1579900216), (114649534, 1556508313), (103090712, 1532825610), (92116573, 1508866372)],
  [(81733730, 1484645031), (71948434, 1460176177), (62766582, 1435474550), (54193703, 1410555028), (46234962, 1385432623), (38895153, 1360122467), (32178697, 1334639806), (26089639, 1308999989), (20631648, 1283218462), (15808011, 1257310754), (11621634, 1231292471), (8075038, 1205179286), (5170360, 1178986927), (2909350, 1152731173), (1293369, 1126427838), (323391, 1100092767)],
  [(0, 1073741824), (323391, 1047390881), (1293369, 1021055810), (2909350, 994752475), (5170360, 968496721), (8075038, 942304362), (11621634, 916191177), (15808011, 890172894), (20631648, 864265186), (26089639, 838483659), (32178697, 812843842), (38895153, 787361181), (46234962, 762051025), (54193703, 736928620), (62766582, 712009098), (71948434, 687307471)],
  [(81733730, 662838617), (92116573, 638617276), (103090712, 614658038), (114649534, 590975335), (126786077, 567583432), (139493031, 544496420), (152762742, 521728206), (166587216, 499292504), (180958126, 477202829), (195866815, 455472486), (211304304, 434114566), (227261293, 413141934), (243728170, 392567222), (260695016, 372402824), (278151611, 352660887), (296087440, 333353302)],
  [(314491699, 314491699), (333353302, 296087440), (352660887, 278151611), (372402824, 260695016), (392567222, 243728170), (413141934, 227261293), (434114566, 211304304), (455472486, 195866815), (477202829, 180958126), (499292504, 166587216), (521728206, 152762742), (544496420, 139493031), (567583432, 126786077), (590975335, 114649534), (614658038, 103090712), (638617276, 92116573)],
  [(662838617, 81733730), (687307471, 71948434), (712009098, 62766582), (736928620, 54193703), (762051025, 46234962), (787361181, 38895153), (812843842, 32178697), (838483659, 26089639), (864265186, 20631648), (890172894, 15808011), (916191177, 11621634), (942304362, 8075038), (968496721, 5170360), (994752475, 2909350), (1021055810, 1293369), (1047390881, 323391)],
  [(1073741824, 0), (1100092767, 323391), (1126427838, 1293369), (1152731173, 2909350), (1178986927, 5170360), (1205179286, 8075038), (1231292471, 11621634), (1257310754, 15808011), (1283218462, 20631648), (1308999989, 26089639), (1334639806, 32178697), (1360122467, 38895153), (1385432623, 46234962), (1410555028, 54193703), (1435474550, 62766582), (1460176177, 71948434)],
  [(1484645031, 81733730), (1508866372, 92116573), (1532825610, 103090712), (1556508313, 114649534), (1579900216, 126786077), (1602987228, 139493031), (1625755442, 152762742), (1648191144, 166587216), (1670280819, 180958126), (1692011162, 195866815), (1713369082, 211304304), (1734341714, 227261293), (1754916426, 243728170), (1775080824, 260695016), (1794822761, 278151611), (1814130346, 296087440)],
  [(1832991949, 314491699), (1851396208, 333353302), (1869332037, 352660887), (1886788632, 372402824), (1903755478, 392567222), (1920222355, 413141934), (1936179344, 434114566), (1951616833, 455472486), (1966525522, 477202829), (1980896432, 499292504), (1994720906, 521728206), (2007990617, 544496420), (2020697571, 567583432), (2032834114, 590975335), (2044392936, 614658038), (2055367075, 638617276)],
  [(2065749918, 662838617), (2075535214, 687307471), (2084717066, 712009098), (2093289945, 736928620), (2101248686, 762051025), (2108588495, 787361181), (2115304951, 812843842), (2121394009, 838483659), (2126852000, 864265186), (2131675637, 890172894), (2135862014, 916191177), (2139408610, 942304362), (2142313288, 968496721), (2144574298, 994752475), (2146190279, 1021055810), (2147160257, 1047390881)]]

def point (a : ℕ) : ℕ × ℕ := (circle.getD (Nat.div (Nat.mod a 256) 16) []).getD (Nat.mod a 16) (0, 0)

/-- Squares of the cosines of the tolerances. -/
def level (r : ℕ) : ℕ := match Nat.ble 4096 r with
  | true => 1151866654041079297
  | false => match Nat.ble 256 r with
    | true => 1147515543654966145
    | false => match Nat.ble 16 r with
      | true => 1117343988355109249
      | false => 1013354107724995969

/-- The inner product is `P - M`. -/
def sharp (P M r : ℕ) : Bool := Nat.ble M P && Nat.ble (Nat.mul r (level r)) (Nat.mul (Nat.sub P M) (Nat.sub P M))

/-- Both the vector with the parts `x` and `y - 128` and its mirror image. -/
def both (y x : ℕ) : Bool :=
  let A := found y x
  let r := Nat.sub (Nat.add (Nat.add (Nat.mul x x) (Nat.mul y y)) 16384) (Nat.mul 256 y)
  let right := point (Nat.div A 2)
  let left := point (Nat.div (Nat.sub 3328 A) 2)
  sharp (Nat.add (Nat.add (Nat.mul x right.1) (Nat.mul y right.2)) 137438953472) (Nat.add (Nat.mul 1073741824 (Nat.add x y)) (Nat.mul 128 right.2)) r &&
  sharp (Nat.add (Nat.add (Nat.mul x 1073741824) (Nat.mul y left.2)) 137438953472) (Nat.add (Nat.add (Nat.mul x left.1) (Nat.mul y 1073741824)) (Nat.mul 128 left.2)) r

theorem exhausted : ((List.range 129).all fun x => (List.range 256).all fun y => both y x) = true := by decide +kernel

end DSP.Cordic
