import Verif

/-! The binary64 arithmetic of the model (`rnd64`, `Num`) against the `double`s of this machine (`Float`), on pseudorandom
operands of all magnitudes and on the accumulators.  Tests of the formalisation of IEEE 754, not proofs: run
`lake env lean --stdin < ../tools/conformance/Floats.txt` in `lean/`. -/

open Bwsl

def sqrtQ (x : ℚ) : ℚ := (Nat.sqrt (x * 2 ^ 2400).floor.toNat : ℚ) / 2 ^ 1200
def B : Arith ℚ := ⟨rnd64, sqrtQ, fun _ => 0, fun _ => 0, fun _ _ => 0, fun _ => 0, fun _ => 0, 0⟩
abbrev D := Num B

/-- The value of a `double`. -/
def decode (x : Float) : D :=
  let n := x.toBits.toNat
  let neg := n / 2 ^ 63 = 1
  let e : Nat := n / 2 ^ 52 % 2048
  let m : Nat := n % 2 ^ 52
  if e = 2047 then (if m = 0 then .inf neg else .nan)
  else
    let q : ℚ := if e = 0 then (m : ℚ) * (2 : ℚ) ^ (-1074 : Int) else ((2 ^ 52 + m : Nat) : ℚ) * (2 : ℚ) ^ ((e : Int) - 1075)
    .fin (if neg then -q else q)

/-- Zeros are not distinguished by sign in the model, so that only quotients by zero may differ. -/
def same (x : Float) (y : D) : Bool := decide (decode x = y)

def lcg (s : Nat) : Nat := (s * 6364136223846793005 + 1442695040888963407) % 2 ^ 64
def rand (s : Nat) : Nat := (lcg s / 2 ^ 32) + (lcg (lcg s) / 2 ^ 32) * 2 ^ 32
def float (s : Nat) : Float :=
  let r := rand s
  match (rand (s + 77) / 2 ^ 20) % 8 with
  | 0 => Float.ofBits r.toUInt64                                   -- anything
  | 1 => Float.ofBits (r % 2 ^ 54 + 2 ^ 63 * (r / 2 ^ 60 % 2)).toUInt64   -- subnormal or small
  | 2 => Float.ofBits (0x7fd0000000000000 + r % 2 ^ 53).toUInt64   -- large
  | 3 => Float.ofInt ((r % 2000 : Nat) - 1000)                     -- small integers
  | 4 => Float.ofInt ((r % 2000 : Nat) - 1000) / 64
  | _ => Float.ofBits (0x3fe0000000000000 + r % 2 ^ 54 + 2 ^ 63 * (r / 2 ^ 60 % 2)).toUInt64  -- around 1

def check (n : Nat) (f : Nat → Bool) : List Nat := (List.range n).filter fun s => !f s

def pairs (op : Float → Float → Float) (op' : D → D → D) (s : Nat) : Bool :=
  let x := float (3 * s)
  let y := float (7 * s + 1000003)
  same (op x y) (op' (decode x) (decode y))

#guard check 4000 (pairs (· + ·) (· + ·)) == []
#guard check 4000 (pairs (· - ·) (· - ·)) == []
#guard check 4000 (pairs (· * ·) (· * ·)) == []
#guard check 4000 (fun s => float (7 * s + 1000003) == 0 || pairs (· / ·) (· / ·) s) == []
#guard check 1500 (fun s => same (float s).sqrt (CxxFloat.sqrt (decode (float s)))) == []
#guard check 4000 (fun s => same (float s).abs (CxxFloat.abs (decode (float s)))) == []
#guard check 4000 (fun s => let x := float (3 * s); let y := float (7 * s + 1000003)
  decide (x < y) == CxxFloat.lt (decode x) (decode y) && decide (x ≤ y) == CxxFloat.le (decode x) (decode y) &&
  (x == y) == CxxFloat.eq (decode x) (decode y)) == []
#guard check 4000 (fun s => same (Float.ofNat (rand s)) (CxxFloat.ofNat (rand s) : D)) == []
#guard check 4000 (fun s => same (Float.ofInt ((rand s : Int) - 2 ^ 63)) (CxxFloat.ofInt ((rand s : Int) - 2 ^ 63) : D)) == []

/-- The model on the `double`s of the machine. -/
instance : CxxFloat Float where
  zero := 0
  lit q := Float.ofInt q.num / Float.ofNat q.den
  nan := 0 / 0
  ofNat := Float.ofNat
  ofInt := Float.ofInt
  lt x y := decide (x < y)
  le x y := decide (x ≤ y)
  eq x y := x == y
  abs := Float.abs
  sqrt := Float.sqrt
  exp := Float.exp
  log := Float.log
  pow := Float.pow
  sin := Float.sin
  cos := Float.cos
  pi := 3.141592653589793

def mild (s : Nat) : Float := Float.ofInt ((rand s % 2000001 : Nat) - 1000000) / 1024 * Float.ofInt (rand (s + 5) % 1000 : Nat)
def samples (s : Nat) : List Float := (List.range (rand s % 30 + 2)).map fun i => mild (1000 * s + i)

def sum {F : Type} [CxxFloat F] (xs : List F) : F := (xs.foldl (fun s x => (Kahan.add false s x).state) (Kahan.new : Kahan F)).getSum
def sumN {F : Type} [CxxFloat F] (xs : List F) : F := (xs.foldl (fun s x => (Neumaier.add false s x).state) (Neumaier.new : Neumaier F)).getSum
def kw {F : Type} [CxxFloat F] (xs : List F) : KnuthWelford F := xs.foldl (fun s x => (KnuthWelford.add false s x).state) KnuthWelford.new
def west {F : Type} [CxxFloat F] (xs : List F) : West F :=
  xs.foldl (fun s x => (West.add false s x (CxxFloat.abs x + CxxFloat.lit 1)).state) West.new

#guard check 200 (fun s => same (sum (samples s)) (sum ((samples s).map decode))) == []
#guard check 200 (fun s => same (sumN (samples s)) (sumN ((samples s).map decode))) == []
#guard check 200 (fun s => same (kw (samples s)).mean (kw ((samples s).map decode)).mean &&
  same ((kw (samples s)).variance true) ((kw ((samples s).map decode)).variance true) &&
  same ((kw (samples s)).error true) ((kw ((samples s).map decode)).error true)) == []
#guard check 200 (fun s => same (west (samples s)).mean (west ((samples s).map decode)).mean &&
  same (west (samples s)).sampleReliabilityVariance (west ((samples s).map decode)).sampleReliabilityVariance) == []
