import Verif.Model.Rational
import Verif.Cxx.Int32

/-!
# Model of include/bwsl/RationalNum.hpp, at `T = int` (`RationalInt`)

The same functions as in Rational.lean with operations on `int`.  The data members (`RatNum`), printing, the conversion to
`double` and the reading of the two slashes do not depend on `T` and are those of Rational.lean.
-/

namespace Bwsl.RatInt

/-- include/bwsl/MathUtils.hpp:392-400 `get_gcd`, at `T = int` -/
def getGcd (a b : Int) : Res Int :=
  if b = 0 then .ok a
  else do
    let r ← imod a b
    getGcd b r
partial_fixpoint

/-- include/bwsl/RationalNum.hpp:195-202 `Simplify` -/
def simplify (r : RatNum) : Res RatNum := do
  let g ← getGcd r.num r.den
  let n ← idiv r.num g
  let d ← idiv r.den g
  .ok ⟨n, d⟩

/-- include/bwsl/RationalNum.hpp:187-193 constructor -/
def new (num den : Int) : Res RatNum := simplify ⟨num, den⟩

/-- include/bwsl/RationalNum.hpp:61 conversion to `T` -/
def toInt (r : RatNum) : Res Int := idiv r.num r.den

/-- include/bwsl/RationalNum.hpp:138 `IsInt` -/
def isInt (r : RatNum) : Res Bool := do
  let m ← imod r.num r.den
  .ok (m == 0)

/-- include/bwsl/RationalNum.hpp:204-209 `operator<` -/
def lt (a b : RatNum) : Res Bool := do
  let x ← imul a.num b.den
  let y ← imul b.num a.den
  .ok (decide (x < y))

/-- include/bwsl/RationalNum.hpp:211-216 `operator<(RationalNum, G)` -/
def ltInt (a : RatNum) (n : Int) : Res Bool := do
  let q ← idiv a.num a.den
  .ok (decide (q < n))

/-- include/bwsl/RationalNum.hpp:218-223 `operator<(G, RationalNum)` -/
def intLt (n : Int) (b : RatNum) : Res Bool := do
  let q ← idiv b.num b.den
  .ok (decide (n < q))

/-! The operators that the macro generates, include/bwsl/RationalNum.hpp:225-227. -/

/-- include/bwsl/RationalNum.hpp:225 `operator==` -/
def eq : RatNum → RatNum → Res Bool := Rel.eq lt lt
/-- include/bwsl/RationalNum.hpp:225 `operator!=` -/
def ne : RatNum → RatNum → Res Bool := Rel.ne eq
/-- include/bwsl/RationalNum.hpp:225 `operator<=` -/
def le : RatNum → RatNum → Res Bool := Rel.le lt
/-- include/bwsl/RationalNum.hpp:225 `operator>` -/
def gt : RatNum → RatNum → Res Bool := Rel.gt lt
/-- include/bwsl/RationalNum.hpp:225 `operator>=` -/
def ge : RatNum → RatNum → Res Bool := Rel.ge lt

/-- include/bwsl/RationalNum.hpp:226 `operator==(RationalNum, G)` -/
def eqInt : RatNum → Int → Res Bool := Rel.eq ltInt intLt
/-- include/bwsl/RationalNum.hpp:226 `operator!=(RationalNum, G)` -/
def neInt : RatNum → Int → Res Bool := Rel.ne eqInt
/-- include/bwsl/RationalNum.hpp:226 `operator<=(RationalNum, G)` -/
def leInt : RatNum → Int → Res Bool := Rel.le intLt
/-- include/bwsl/RationalNum.hpp:226 `operator>(RationalNum, G)` -/
def gtInt : RatNum → Int → Res Bool := Rel.gt intLt
/-- include/bwsl/RationalNum.hpp:226 `operator>=(RationalNum, G)` -/
def geInt : RatNum → Int → Res Bool := Rel.ge ltInt

/-- include/bwsl/RationalNum.hpp:227 `operator==(G, RationalNum)` -/
def intEq : Int → RatNum → Res Bool := Rel.eq intLt ltInt
/-- include/bwsl/RationalNum.hpp:227 `operator!=(G, RationalNum)` -/
def intNe : Int → RatNum → Res Bool := Rel.ne intEq
/-- include/bwsl/RationalNum.hpp:227 `operator<=(G, RationalNum)` -/
def intLe : Int → RatNum → Res Bool := Rel.le ltInt
/-- include/bwsl/RationalNum.hpp:227 `operator>(G, RationalNum)` -/
def intGt : Int → RatNum → Res Bool := Rel.gt ltInt
/-- include/bwsl/RationalNum.hpp:227 `operator>=(G, RationalNum)` -/
def intGe : Int → RatNum → Res Bool := Rel.ge intLt

/-- include/bwsl/RationalNum.hpp:229-236 `operator+` -/
def add (a b : RatNum) : Res RatNum := do
  let x ← imul a.num b.den
  let y ← imul b.num a.den
  let n ← iadd x y
  let d ← imul a.den b.den
  new n d

/-- include/bwsl/RationalNum.hpp:238-245 `operator-` -/
def sub (a b : RatNum) : Res RatNum := do
  let x ← imul a.num b.den
  let y ← imul b.num a.den
  let n ← isub x y
  let d ← imul a.den b.den
  new n d

/-- include/bwsl/RationalNum.hpp:247-253 `operator/` -/
def div (a b : RatNum) : Res RatNum := do
  let n ← imul a.num b.den
  let d ← imul b.num a.den
  new n d

/-- include/bwsl/RationalNum.hpp:255-261 `operator*` -/
def mul (a b : RatNum) : Res RatNum := do
  let n ← imul a.num b.num
  let d ← imul a.den b.den
  new n d

/-- include/bwsl/RationalNum.hpp:263-268 `operator+(RationalNum, G)` -/
def addInt (a : RatNum) (n : Int) : Res RatNum := do
  let y ← imul n a.den
  let x ← iadd a.num y
  new x a.den

/-- include/bwsl/RationalNum.hpp:270-275 `operator-(RationalNum, G)` -/
def subInt (a : RatNum) (n : Int) : Res RatNum := do
  let y ← imul n a.den
  let x ← isub a.num y
  new x a.den

/-- include/bwsl/RationalNum.hpp:277-282 `operator/(RationalNum, G)` -/
def divInt (a : RatNum) (n : Int) : Res RatNum := do
  let d ← imul a.den n
  new a.num d

/-- include/bwsl/RationalNum.hpp:284-289 `operator*(RationalNum, G)` -/
def mulInt (a : RatNum) (n : Int) : Res RatNum := do
  let x ← imul a.num n
  new x a.den

/-- include/bwsl/RationalNum.hpp:291-296 `operator+(G, RationalNum)` -/
def intAdd (n : Int) (a : RatNum) : Res RatNum := addInt a n

/-- include/bwsl/RationalNum.hpp:298-303 `operator-(G, RationalNum)` -/
def intSub (n : Int) (a : RatNum) : Res RatNum := do
  let y ← imul n a.den
  let x ← isub y a.num
  new x a.den

/-- include/bwsl/RationalNum.hpp:305-310 `operator*(G, RationalNum)` -/
def intMul (n : Int) (a : RatNum) : Res RatNum := mulInt a n

/-- include/bwsl/RationalNum.hpp:312-317 `operator/(G, RationalNum)` -/
def intDiv (n : Int) (a : RatNum) : Res RatNum := do
  let x ← imul n a.den
  new x a.num

/-- include/bwsl/RationalNum.hpp:171-185 `operator>>`; the second component is the object after the call -/
def extract (st : IStream) (r : RatNum) : IStream × RatNum :=
  let (n, st) := st.readInt r.num
  let r : RatNum := { r with num := n }
  let (st, go) := RatNum.readSeps st
  if go then
    let (d, st) := st.readInt r.den
    (st, { r with den := d })
  else (st, r)

/-- include/bwsl/RationalNum.hpp:319-329 `FromString`: the object after the call, and how it ended -/
def fromString (s : List Char) (r : RatNum) : RatNum × Res Unit :=
  let (st, r) := extract (IStream.ofString s) r
  (r, if st.fail then .throws .badParsing else .ok ())

end Bwsl.RatInt
