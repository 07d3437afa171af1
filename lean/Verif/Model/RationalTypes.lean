import Verif.Model.Rational
import Verif.Model.MathTypes
import Verif.Cxx.TextTypes

/-!
# Model of include/bwsl/RationalNum.hpp, at every integer type

`T` has at least 32 bits.  For a narrower one the class can be named, but neither its constructor nor any operation that
returns a `RationalNum` compiles: `Simplify` calls `get_gcd`, whose recursive call has arguments of types `T` and `int`.
The operations are those of Rational.lean with the arithmetic of the type; the data members (`RatNum`) and the conversion to
`double` and printing do not depend on `T`.
-/

namespace Bwsl.RatT

/-- include/bwsl/RationalNum.hpp:195-202 `Simplify` -/
def simplify (t : CInt) (r : RatNum) : Res RatNum := do
  let g ← t.getGcd r.num r.den
  let n ← t.div r.num g
  let d ← t.div r.den g
  .ok ⟨n, d⟩

/-- include/bwsl/RationalNum.hpp:187-193 constructor -/
def new (t : CInt) (num den : Int) : Res RatNum := simplify t ⟨num, den⟩

/-- include/bwsl/RationalNum.hpp:61 conversion to `T` -/
def toInt (t : CInt) (r : RatNum) : Res Int := t.div r.num r.den

/-- include/bwsl/RationalNum.hpp:138 `IsInt` -/
def isInt (t : CInt) (r : RatNum) : Res Bool := do
  let m ← t.mod r.num r.den
  .ok (m == 0)

/-- include/bwsl/RationalNum.hpp:204-209 `operator<` -/
def lt (t : CInt) (a b : RatNum) : Res Bool := do
  let x ← t.mul a.num b.den
  let y ← t.mul b.num a.den
  .ok (decide (x < y))

/-- include/bwsl/RationalNum.hpp:211-216 `operator<(RationalNum, G)` -/
def ltInt (t : CInt) (a : RatNum) (n : Int) : Res Bool := do
  let q ← t.div a.num a.den
  .ok (decide (q < n))

/-- include/bwsl/RationalNum.hpp:218-223 `operator<(G, RationalNum)` -/
def intLt (t : CInt) (n : Int) (b : RatNum) : Res Bool := do
  let q ← t.div b.num b.den
  .ok (decide (n < q))

/-! The operators that the macro generates, include/bwsl/RationalNum.hpp:225-227. -/

/-- include/bwsl/RationalNum.hpp:225 `operator==` -/
def eq (t : CInt) : RatNum → RatNum → Res Bool := Rel.eq (lt t) (lt t)
/-- include/bwsl/RationalNum.hpp:225 `operator!=` -/
def ne (t : CInt) : RatNum → RatNum → Res Bool := Rel.ne (eq t)
/-- include/bwsl/RationalNum.hpp:225 `operator<=` -/
def le (t : CInt) : RatNum → RatNum → Res Bool := Rel.le (lt t)
/-- include/bwsl/RationalNum.hpp:225 `operator>` -/
def gt (t : CInt) : RatNum → RatNum → Res Bool := Rel.gt (lt t)
/-- include/bwsl/RationalNum.hpp:225 `operator>=` -/
def ge (t : CInt) : RatNum → RatNum → Res Bool := Rel.ge (lt t)

/-- include/bwsl/RationalNum.hpp:226 `operator==(RationalNum, G)` -/
def eqInt (t : CInt) : RatNum → Int → Res Bool := Rel.eq (ltInt t) (intLt t)
/-- include/bwsl/RationalNum.hpp:226 `operator!=(RationalNum, G)` -/
def neInt (t : CInt) : RatNum → Int → Res Bool := Rel.ne (eqInt t)
/-- include/bwsl/RationalNum.hpp:226 `operator<=(RationalNum, G)` -/
def leInt (t : CInt) : RatNum → Int → Res Bool := Rel.le (intLt t)
/-- include/bwsl/RationalNum.hpp:226 `operator>(RationalNum, G)` -/
def gtInt (t : CInt) : RatNum → Int → Res Bool := Rel.gt (intLt t)
/-- include/bwsl/RationalNum.hpp:226 `operator>=(RationalNum, G)` -/
def geInt (t : CInt) : RatNum → Int → Res Bool := Rel.ge (ltInt t)

/-- include/bwsl/RationalNum.hpp:227 `operator==(G, RationalNum)` -/
def intEq (t : CInt) : Int → RatNum → Res Bool := Rel.eq (intLt t) (ltInt t)
/-- include/bwsl/RationalNum.hpp:227 `operator!=(G, RationalNum)` -/
def intNe (t : CInt) : Int → RatNum → Res Bool := Rel.ne (intEq t)
/-- include/bwsl/RationalNum.hpp:227 `operator<=(G, RationalNum)` -/
def intLe (t : CInt) : Int → RatNum → Res Bool := Rel.le (ltInt t)
/-- include/bwsl/RationalNum.hpp:227 `operator>(G, RationalNum)` -/
def intGt (t : CInt) : Int → RatNum → Res Bool := Rel.gt (ltInt t)
/-- include/bwsl/RationalNum.hpp:227 `operator>=(G, RationalNum)` -/
def intGe (t : CInt) : Int → RatNum → Res Bool := Rel.ge (intLt t)

/-- include/bwsl/RationalNum.hpp:229-236 `operator+` -/
def add (t : CInt) (a b : RatNum) : Res RatNum := do
  let x ← t.mul a.num b.den
  let y ← t.mul b.num a.den
  let n ← t.add x y
  let d ← t.mul a.den b.den
  new t n d

/-- include/bwsl/RationalNum.hpp:238-245 `operator-` -/
def sub (t : CInt) (a b : RatNum) : Res RatNum := do
  let x ← t.mul a.num b.den
  let y ← t.mul b.num a.den
  let n ← t.sub x y
  let d ← t.mul a.den b.den
  new t n d

/-- include/bwsl/RationalNum.hpp:247-253 `operator/` -/
def div (t : CInt) (a b : RatNum) : Res RatNum := do
  let n ← t.mul a.num b.den
  let d ← t.mul b.num a.den
  new t n d

/-- include/bwsl/RationalNum.hpp:255-261 `operator*` -/
def mul (t : CInt) (a b : RatNum) : Res RatNum := do
  let n ← t.mul a.num b.num
  let d ← t.mul a.den b.den
  new t n d

/-- include/bwsl/RationalNum.hpp:263-268 `operator+(RationalNum, G)` -/
def addInt (t : CInt) (a : RatNum) (n : Int) : Res RatNum := do
  let y ← t.mul n a.den
  let x ← t.add a.num y
  new t x a.den

/-- include/bwsl/RationalNum.hpp:270-275 `operator-(RationalNum, G)` -/
def subInt (t : CInt) (a : RatNum) (n : Int) : Res RatNum := do
  let y ← t.mul n a.den
  let x ← t.sub a.num y
  new t x a.den

/-- include/bwsl/RationalNum.hpp:277-282 `operator/(RationalNum, G)` -/
def divInt (t : CInt) (a : RatNum) (n : Int) : Res RatNum := do
  let d ← t.mul a.den n
  new t a.num d

/-- include/bwsl/RationalNum.hpp:284-289 `operator*(RationalNum, G)` -/
def mulInt (t : CInt) (a : RatNum) (n : Int) : Res RatNum := do
  let x ← t.mul a.num n
  new t x a.den

/-- include/bwsl/RationalNum.hpp:291-296 `operator+(G, RationalNum)` -/
def intAdd (t : CInt) (n : Int) (a : RatNum) : Res RatNum := addInt t a n

/-- include/bwsl/RationalNum.hpp:298-303 `operator-(G, RationalNum)` -/
def intSub (t : CInt) (n : Int) (a : RatNum) : Res RatNum := do
  let y ← t.mul n a.den
  let x ← t.sub y a.num
  new t x a.den

/-- include/bwsl/RationalNum.hpp:305-310 `operator*(G, RationalNum)` -/
def intMul (t : CInt) (n : Int) (a : RatNum) : Res RatNum := mulInt t a n

/-- include/bwsl/RationalNum.hpp:312-317 `operator/(G, RationalNum)` -/
def intDiv (t : CInt) (n : Int) (a : RatNum) : Res RatNum := do
  let x ← t.mul n a.den
  new t x a.num

/-- include/bwsl/RationalNum.hpp:171-185 `operator>>`; the second component is the object after the call -/
def extract (t : CInt) (st : IStream) (r : RatNum) : IStream × RatNum :=
  let (n, st) := st.readT t r.num
  let r : RatNum := { r with num := n }
  let (st, go) := RatNum.readSeps st
  if go then
    let (d, st) := st.readT t r.den
    (st, { r with den := d })
  else (st, r)

/-- include/bwsl/RationalNum.hpp:319-329 `FromString`: the object after the call, and how it ended -/
def fromString (t : CInt) (s : List Char) (r : RatNum) : RatNum × Res Unit :=
  let (st, r) := extract t (IStream.ofString s) r
  (r, if st.fail then .throws .badParsing else .ok ())

end Bwsl.RatT
