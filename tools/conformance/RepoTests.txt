import Verif

/-! The assertions of /repo/test evaluated in the model, with a computable binary64 arithmetic over ℚ.  These are tests
of the reading of the source, not proofs, and they are not part of the library: run
`lake env lean --stdin < ../tools/conformance/RepoTests.txt` in `lean/`. -/

open Bwsl

/-- Square root of a rational, to 200 bits. -/
def sqrtQ (x : ℚ) : ℚ := (Nat.sqrt (x * 2 ^ 400).floor.toNat : ℚ) / 2 ^ 200

/-- binary64; the elementary functions that no test needs are zero. -/
def B : Arith ℚ := ⟨rnd64, sqrtQ, fun _ => 0, fun _ => 0, fun _ _ => 0, fun _ => 0, fun _ => 0, 3141592653589793238462643383279502884197 / 10 ^ 39⟩
abbrev D := Num B

instance : BEq D := ⟨fun x y => CxxFloat.eq x y⟩

/-- `Catch::Approx` with its default tolerance, 100 times the `float` epsilon. -/
def approx (x : D) (y : ℚ) : Bool :=
  match x with
  | .fin x => decide (|x - y| ≤ 12 / 1000000 * |y|)
  | _ => false

def okv (r : Res α) (p : α → Bool) : Bool := match r with | .ok a => p a | _ => false
def got [BEq α] (r : Res α) (a : α) : Bool := okv r (· == a)

/-! test/PairsTest.cpp -/
#guard (List.range 489).all fun a => (List.range 489).all fun b => b < a ∨ got (Pairs.getPair (Pairs.getPairIndex a b 489) 489) (a, b)

/-! test/HyperCubicGridTest.cpp -/
def hc := Grid.new [3, 4] .closed
def ho := Grid.new [3, 4] .open
#guard hc.numsites == 12 ∧ ho.numsites == 12
#guard [hc, ho].all fun h => (List.range 12).all fun i => okv (h.getCoordinates i) fun c => got (h.getIndex c) i
#guard (List.range 12).all fun i => got (hc.getMappedSite 0 i) i
#guard [(6, 7, 1), (6, 2, 8), (6, 1, 11), (8, 8, 0), (2, 2, 0), (1, 1, 0), (0, 0, 0)].all fun (a, b, c) => got (hc.getMappedSite a b) c
#guard (List.range 12).all fun i => (List.range 12).all fun j => okv (hc.getMappedSite i j) fun m => got (hc.getUnMappedSite m i) j
#guard [(1, 8, [-1, -1]), (8, 1, [1, 1]), (0, 6, [1, 2]), (6, 0, [-1, 2])].all fun (a, b, c) => got (hc.getJump a b) c
#guard [(1, 8, [2, -1]), (8, 1, [-2, 1]), (0, 6, [1, 2]), (6, 0, [-1, -2])].all fun (a, b, c) => got (ho.getJump a b) c

/-! test/RationalNumTest.cpp -/
def eqR (x : Res RatNum) (p q : Int) : Bool := okv x fun x => okv (RatNum.new p q) fun y => got (RatNum.eq x y) true
def a1 : RatNum := ⟨5, 7⟩
def b1 : RatNum := ⟨10, 11⟩
def a : RatNum := ⟨5, 9⟩
def b : RatNum := ⟨13, 3⟩
#guard RatNum.new 5 7 == .ok a1 ∧ RatNum.new 10 11 == .ok b1 ∧ RatNum.new 5 9 == .ok a ∧ RatNum.new 13 3 == .ok b
#guard got (a1.lt b1) true ∧ got (b1.gt a1) true ∧ got (a1.le a1) true ∧ got (b1.le b1) true ∧ got (a1.le b1) true ∧ got (b1.ge a1) true
#guard eqR (a.add b) 44 9 ∧ eqR (a.sub b) (-34) 9 ∧ eqR (b.sub a) 34 9 ∧ eqR (a.mul b) 65 27 ∧ eqR (b.mul a) 65 27 ∧
  eqR (a.div b) 5 39 ∧ eqR (b.div a) 39 5
#guard eqR (a.addInt 10) 95 9 ∧ eqR (RatNum.intAdd 10 a) 95 9 ∧ eqR (RatNum.intMul 10 a) 50 9 ∧ eqR (RatNum.intDiv 11 a) 99 5 ∧
  eqR (a.divInt 11) 5 99
#guard (RatNum.fromString "3//2".toList ⟨0, 1⟩).2 == .ok () ∧ eqR (.ok (RatNum.fromString "3//2".toList ⟨0, 1⟩).1) 3 2

/-! test/HistAccumulatorTest.cpp -/
def hist : Hist D := Hist.new 10
#guard hist.getNbins == 10 ∧ (List.range 10).all fun i => okv (hist.getResult i) (· == .fin 0)

/-! test/MoveStatsTest.cpp -/
def moves : MoveStats D := Id.run do
  let mut s : MoveStats D := MoveStats.new "TestMove"
  for _ in [0:600] do s := (s.propose.state.accept false (CxxFloat.lit (6 / 10))).state
  for _ in [0:400] do s := (s.propose.state.reject false (CxxFloat.lit (6 / 10))).state
  return s
#guard approx moves.getAcceptedRatio (6 / 10)
#guard approx moves.getAverageProbability (6 / 10)
#guard approx moves.getRejectedRatio (4 / 10)
#guard moves.getImpossibleRatio == .fin 0

/-! test/EnumString.cpp -/
#guard enumToString "OS_type" ["Linux", "Apple", "Windows"] 2 == "Windows"
#guard (enumFromString ["Linux", "Apple", "Windows"] 0 "Windows").state == 2

/-! test/BravaisTest.cpp -/
def twoPi : ℚ := 2 * B.pi
def approxs (xs : List D) (ys : List ℚ) : Bool := xs.length == ys.length ∧ (xs.zip ys).all fun (x, y) => approx x y
def realSpace (l : Res (Bravais D)) (c : List Int) (v : List ℚ) : Bool := okv l fun b => okv (b.getRealSpace c) (approxs · v)
def recSpace (l : Res (Bravais D)) (c : List Int) (v : List ℚ) : Bool :=
  okv l fun b => okv (b.getReciprocalSpace c) (approxs · (v.map (twoPi * ·)))
#guard [([0], [0]), ([1], [1]), ([-2], [-2])].all fun (c, v) => realSpace chainLattice c v ∧ recSpace chainLattice c v
#guard [([0, 0], [0, 0]), ([1, 0], [1, 0]), ([-1, 2], [-1, 2])].all fun (c, v) => realSpace squareLattice c v ∧ recSpace squareLattice c v
#guard [([0, 0, 0], [0, 0, 0]), ([1, 0, 1], [1, 0, 1]), ([-1, 2, 3], [-1, 2, 3])].all fun (c, v) =>
  realSpace cubicLattice c v ∧ recSpace cubicLattice c v
#guard [([0, 0], [0, 0]), ([1, 0], [1, 0]), ([1, 1], [3 / 2, sqrtQ 3 / 2])].all fun (c, v) => realSpace triangularLattice c v
#guard [([0, 0], [0, 0]), ([1, 0], [1, -1 / sqrtQ 3]), ([1, 1], [1, 1 / sqrtQ 3])].all fun (c, v) => recSpace triangularLattice c v
#guard okv (chainLattice (F := D)) fun b => got (b.getNeighbor [2] 0) [3]
#guard okv (squareLattice (F := D)) fun b => got (b.getNeighbor [2, 2] 0) [3, 2]
#guard okv (cubicLattice (F := D)) fun b => got (b.getNeighbor [2, 2, 2] 0) [3, 2, 2]
#guard okv (triangularLattice (F := D)) fun b => [[3, 2], [1, 2], [2, 3], [2, 1], [3, 1], [1, 3]].zipIdx.all fun (n, k) => got (b.getNeighbor [2, 2] k) n

/-! test/LatticeTest.cpp -/
def square (size : List Nat) : Res (Bwsl.Lattice D) := do Bwsl.Lattice.new (← squareLattice) size .closed
def sq33 := square [3, 3]
def sq34 := square [3, 4]
#guard [(4, 1), (1, 4), (0, 1), (0, 3), (0, 6), (0, 2), (8, 5), (8, 7), (8, 2), (8, 6)].all fun (x, y) => okv sq33 fun l => got (l.areNeighbors x y) true
#guard [(0, 1, 1), (0, 2, 1), (0, 4, sqrtQ 2), (0, 8, sqrtQ 2), (4, 7, 1)].all fun (x, y, d) => okv sq33 fun l => okv (l.getDistance x y) (approx · d)
#guard okv sq33 fun l => got (l.grid.getJump 0 1) [0, 1]
#guard [(0, 1), (0, 4), (0, 8), (0, 3), (7, 4), (7, 3), (7, 11), (7, 6), (5, 1), (5, 6), (5, 4), (5, 9)].all fun (x, y) =>
  okv sq34 fun l => got (l.areNeighbors x y) true
#guard [(0, 1, 1), (0, 2, 2), (0, 5, sqrtQ 2), (0, 11, sqrtQ 2), (0, 8, 1), (6, 7, 1), (6, 5, 1), (6, 1, sqrtQ 2), (6, 9, sqrtQ 2), (6, 4, 2)].all
  fun (x, y, d) => okv sq34 fun l => okv (l.getDistance x y) (approx · d)
def big : Bool := okv (square [16, 16]) fun l => (List.range 256).all fun i => (List.range 256).all fun j =>
  i == j ∨ okv (l.grid.getCoordinates i) fun ci => okv (l.grid.getCoordinates j) fun cj =>
    let fold (x : Int) : Int := if x > 8 then x - 16 else if x < -8 then x + 16 else x
    let dx := fold (cj.getD 0 0 - ci.getD 0 0)
    let dy := fold (cj.getD 1 0 - ci.getD 1 0)
    okv (l.getDistance i j) (approx · (sqrtQ (dx * dx + dy * dy)))
#guard big

/-! test/KahanAccumulatorTest.cpp, test/NeumaierAccumulatorTest.cpp -/
def one : D := .fin 1
def kahan (xs : List D) : D := (xs.foldl (fun s x => (Kahan.add false s x).state) (Kahan.new : Kahan D)).getSum
def neumaier (xs : List D) : D := (xs.foldl (fun s x => (Neumaier.add false s x).state) (Neumaier.new : Neumaier D)).getSum
partial def epsilonFrom (eps : D) : D := if one + eps == one then eps else epsilonFrom (eps / CxxFloat.lit 2)
def eps := epsilonFrom one
def ints : List D := (List.range 8).map fun i => CxxFloat.ofInt ((i : Int) + 1)
#guard approx (kahan ints) 36 ∧ approx (neumaier ints) 36
#guard !((one + eps) - eps == one)
#guard kahan [one, eps, -eps] == one ∧ neumaier [one, eps, -eps] == one
def large : D := CxxFloat.lit (10 ^ 100)
#guard kahan [one, large, one, -large] == .fin 0 ∧ neumaier [one, large, one, -large] == .fin 2

/-! The seeding of `std::mt19937_64`: the C++ standard requires the 10000th number drawn with the default seed 5489 to be
9981545732273789042. -/
def twist (s : Array Nat) : Array Nat := Id.run do
  let mut s := s
  for i in [0:312] do
    let y := (s[i]! / 2 ^ 31) * 2 ^ 31 + s[(i + 1) % 312]! % 2 ^ 31
    s := s.set! i (s[(i + 156) % 312]! ^^^ (y / 2) ^^^ (if y % 2 = 1 then 0xb5026f5aa96619e9 else 0))
  return s
def temper (z : Nat) : Nat :=
  let z := z ^^^ ((z >>> 29) &&& 0x5555555555555555)
  let z := z ^^^ ((z <<< 17) % 2 ^ 64 &&& 0x71d67fffeda60000)
  let z := z ^^^ ((z <<< 37) % 2 ^ 64 &&& 0xfff7eee000000000)
  z ^^^ (z >>> 43)
def number10000 : Nat := Id.run do
  let mut s := (Dumpmt.seeded 5489 []).toArray
  for _ in [0:33] do s := twist s
  return temper s[9999 % 312]!
#guard number10000 == 9981545732273789042
