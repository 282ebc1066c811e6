import Verif.Std.EmulatedHonest
/-!
The extension tower over the emulated BLS12-381 base field: circuit-std-rs/src/gnark/emulated/field_bls12381/{e2,e6,e12}.rs.
-/
namespace Verif.Std.Emu

variable {F : Type} [Field F] [DecidableEq F] (P : Params)

/-- e2.rs:10-13 (`GE2`). -/
structure E2 (F : Type) where
  a0 : El F
  a1 : El F

/-- e2.rs:130-134 (`one`). -/
def e2One : E2 F := ⟨oneConst P, zeroConst P⟩
/-- e2.rs:135-139 (`zero`). -/
def e2Zero : E2 F := ⟨zeroConst P, zeroConst P⟩
/-- e2.rs:389-395 (`non_residue`). -/
def e2NonResidue : E2 F := ⟨oneConst P, oneConst P⟩

/-- e2.rs:158-162 (`add`). -/
def e2Add (x y : E2 F) : Gad F (E2 F) := do
  let z0 ← add P x.a0 y.a0
  let z1 ← add P x.a1 y.a1
  pure ⟨z0, z1⟩

/-- e2.rs:163-167 (`sub`). -/
def e2Sub (x y : E2 F) : Gad F (E2 F) := do
  let z0 ← sub P x.a0 y.a0
  let z1 ← sub P x.a1 y.a1
  pure ⟨z0, z1⟩

/-- e2.rs:200-209 (`mul_by_const_element`, of a constant that is not negative). -/
def e2MulConst (x : E2 F) (c : Nat) : Gad F (E2 F) := do
  let z0 ← mulConst P x.a0 c
  let z1 ← mulConst P x.a1 c
  pure ⟨z0, z1⟩

/-- e2.rs:168-173 (`double`). -/
def e2Double (x : E2 F) : Gad F (E2 F) := do
  let z0 ← mulConst P x.a0 2
  let z1 ← mulConst P x.a1 2
  pure ⟨z0, z1⟩

/-- e2.rs:174-178 (`neg`). -/
def e2Neg (x : E2 F) : Gad F (E2 F) := do
  let z0 ← neg P x.a0
  let z1 ← neg P x.a1
  pure ⟨z0, z1⟩

/-- e2.rs:179-189 (`mul`). -/
def e2Mul (x y : E2 F) : Gad F (E2 F) := do
  let v0 ← mul P x.a0 y.a0
  let v1 ← mul P x.a1 y.a1
  let b0 ← sub P v0 v1
  let b1 ← add P x.a0 x.a1
  let tmp ← add P y.a0 y.a1
  let b1 ← mul P b1 tmp
  let tmp ← add P v0 v1
  let b1 ← sub P b1 tmp
  pure ⟨b0, b1⟩

/-- e2.rs:190-199 (`mul_by_element`). -/
def e2MulElement (x : E2 F) (y : El F) : Gad F (E2 F) := do
  let v0 ← mul P x.a0 y
  let v1 ← mul P x.a1 y
  pure ⟨v0, v1⟩

/-- e2.rs:210-214 (`mul_by_non_residue`). -/
def e2MulNonResidue (x : E2 F) : Gad F (E2 F) := do
  let a ← sub P x.a0 x.a1
  let b ← add P x.a0 x.a1
  pure ⟨a, b⟩

/-- e2.rs:215-222 (`square`). -/
def e2Square (x : E2 F) : Gad F (E2 F) := do
  let a ← add P x.a0 x.a1
  let b ← sub P x.a0 x.a1
  let a ← mul P a b
  let b ← mul P x.a0 x.a1
  let b ← mulConst P b 2
  pure ⟨a, b⟩

/-- e2.rs:276-280 (`conjugate`). -/
def e2Conj (x : E2 F) : Gad F (E2 F) := do
  let z1 ← neg P x.a1
  pure ⟨x.a0, z1⟩

/-- e2.rs:261-264 (`assert_isequal`). -/
def e2Equal (x y : E2 F) : Gad F Unit := do
  assertEqual P x.a0 y.a0
  assertEqual P x.a1 y.a1

/-- element.rs:62-97 (`value_of` a number that is not negative, below the modulus or reduced by it; `fp` itself, which the code keeps, is not used). -/
def valueOf (v : Nat) : El F := El.int ((digits P.bits P.nlimbs (v % P.modulus)).map (Nat.cast : Nat → F)) 0

/-- One output of `new_hint` (field.rs:214-235). -/
def hintEl : Gad F (El F) := do
  let d ← Gad.hint P.nlimbs
  packLimbs P d true

/-- Two outputs of `new_hint`, as an element. -/
def e2Hint : Gad F (E2 F) := do
  let z0 ← hintEl P
  let z1 ← hintEl P
  pure ⟨z0, z1⟩

/-- e2.rs:223-233 (`div`). -/
def e2Div (x y : E2 F) : Gad F (E2 F) := do
  let d ← e2Hint P
  let x' ← e2Mul P d y
  e2Equal P x x'
  pure d

/-- e2.rs:244-260 (`inverse`; `inverse_div`, e2.rs:234-243, is `div` of one). -/
def e2Inverse (x : E2 F) : Gad F (E2 F) := do
  let inv ← e2Hint P
  let one' ← e2Mul P inv x
  e2Equal P (e2One P) one'
  pure inv

/-- e2.rs:396-407 (`copy`). -/
def e2Copy (x : E2 F) : Gad F (E2 F) := do
  let res ← e2Hint P
  e2Equal P x res
  pure res

/-- e2.rs:29-129 (the entry 1, 1 of the table). -/
def nr11 : E2 F := ⟨valueOf P 3850754370037169011952147076051364057158807420970682438676050522613628423219637725072182697113062777891589506424760,
  valueOf P 151655185184498381465642749684540099398075398968325446656007613510403227271200139370504932015952886146304766135027⟩

/-- e2.rs:297-303 (`mul_by_non_residue1_power1`). -/
def e2MulNr11 (x : E2 F) : Gad F (E2 F) := e2Mul P x (nr11 P)

/-- e2.rs:29-129 (the entry 1, 3 of the table). -/
def nr13 : E2 F := ⟨valueOf P 1028732146235106349975324479215795277384839936929757896155643118032610843298655225875571310552543014690878354869257,
  valueOf P 1028732146235106349975324479215795277384839936929757896155643118032610843298655225875571310552543014690878354869257⟩

/-- e2.rs:315-321 (`mul_by_non_residue1_power3`). -/
def e2MulNr13 (x : E2 F) : Gad F (E2 F) := e2Mul P x (nr13 P)

/-- e2.rs:29-129 (the entry 1, 5 of the table). -/
def nr15 : E2 F := ⟨valueOf P 877076961050607968509681729531255177986764537961432449499635504522207616027455086505066378536590128544573588734230,
  valueOf P 3125332594171059424908108096204648978570118281977575435832422631601824034463382777937621250592425535493320683825557⟩

/-- e2.rs:332-338 (`mul_by_non_residue1_power5`). -/
def e2MulNr15 (x : E2 F) : Gad F (E2 F) := e2Mul P x (nr15 P)

/-- e2.rs:304-314 (`mul_by_non_residue1_power2`). -/
def e2MulNr12 (x : E2 F) : Gad F (E2 F) := do
  let element : El F := valueOf P 4002409555221667392624310435006688643935503118305586438271171395842971157480381377015405980053539358417135540939436
  let a ← mul P x.a1 element
  let a ← neg P a
  let b ← mul P x.a0 element
  pure ⟨a, b⟩

/-- The common part of the following. -/
def e2MulFp (v : Nat) (x : E2 F) : Gad F (E2 F) := do
  let a ← mul P x.a0 (valueOf P v)
  let b ← mul P x.a1 (valueOf P v)
  pure ⟨a, b⟩

/-- e2.rs:322-331 (`mul_by_non_residue1_power4`). -/
def e2MulNr14 (x : E2 F) : Gad F (E2 F) := e2MulFp P 4002409555221667392624310435006688643935503118305586438271171395842971157480381377015405980053539358417135540939437 x

/-- e2.rs:339-348 (`mul_by_non_residue2_power1`). -/
def e2MulNr21 (x : E2 F) : Gad F (E2 F) := e2MulFp P 793479390729215512621379701633421447060886740281060493010456487427281649075476305620758731620351 x

/-- e2.rs:349-358 (`mul_by_non_residue2_power2`). -/
def e2MulNr22 (x : E2 F) : Gad F (E2 F) := e2MulFp P 793479390729215512621379701633421447060886740281060493010456487427281649075476305620758731620350 x

/-- e2.rs:359-368 (`mul_by_non_residue2_power3`). -/
def e2MulNr23 (x : E2 F) : Gad F (E2 F) := e2MulFp P 4002409555221667393417789825735904156556882819939007885332058136124031650490837864442687629129015664037894272559786 x

/-- e2.rs:369-378 (`mul_by_non_residue2_power4`). -/
def e2MulNr24 (x : E2 F) : Gad F (E2 F) := e2MulFp P 4002409555221667392624310435006688643935503118305586438271171395842971157480381377015405980053539358417135540939436 x

/-- e2.rs:379-388 (`mul_by_non_residue2_power5`). -/
def e2MulNr25 (x : E2 F) : Gad F (E2 F) := e2MulFp P 4002409555221667392624310435006688643935503118305586438271171395842971157480381377015405980053539358417135540939437 x

/-- e6.rs:7-11 (`GE6`). -/
structure E6 (F : Type) where
  b0 : E2 F
  b1 : E2 F
  b2 : E2 F

/-- e6.rs:42-51 (`add`). -/
def e6Add (x y : E6 F) : Gad F (E6 F) := do
  let z0 ← e2Add P x.b0 y.b0
  let z1 ← e2Add P x.b1 y.b1
  let z2 ← e2Add P x.b2 y.b2
  pure ⟨z0, z1, z2⟩

/-- e6.rs:52-61 (`neg`). -/
def e6Neg (x : E6 F) : Gad F (E6 F) := do
  let z0 ← e2Neg P x.b0
  let z1 ← e2Neg P x.b1
  let z2 ← e2Neg P x.b2
  pure ⟨z0, z1, z2⟩

/-- e6.rs:62-71 (`sub`). -/
def e6Sub (x y : E6 F) : Gad F (E6 F) := do
  let z0 ← e2Sub P x.b0 y.b0
  let z1 ← e2Sub P x.b1 y.b1
  let z2 ← e2Sub P x.b2 y.b2
  pure ⟨z0, z1, z2⟩

/-- e6.rs:72-81 (`double`). -/
def e6Double (x : E6 F) : Gad F (E6 F) := do
  let z0 ← e2Double P x.b0
  let z1 ← e2Double P x.b1
  let z2 ← e2Double P x.b2
  pure ⟨z0, z1, z2⟩

/-- e6.rs:82-107 (`square`). -/
def e6Square (x : E6 F) : Gad F (E6 F) := do
  let c4 ← e2Mul P x.b0 x.b1
  let c4 ← e2Double P c4
  let c5 ← e2Square P x.b2
  let c1 ← e2MulNonResidue P c5
  let c1 ← e2Add P c1 c4
  let c2 ← e2Sub P c4 c5
  let c3 ← e2Square P x.b0
  let c4 ← e2Sub P x.b0 x.b1
  let c4 ← e2Add P c4 x.b2
  let c5 ← e2Mul P x.b1 x.b2
  let c5 ← e2Double P c5
  let c4 ← e2Square P c4
  let c0 ← e2MulNonResidue P c5
  let c0 ← e2Add P c0 c3
  let z2 ← e2Add P c2 c4
  let z2 ← e2Add P z2 c5
  let z2 ← e2Sub P z2 c3
  pure ⟨c0, c1, z2⟩

/-- e6.rs:108-117 (`mul_by_e2`). -/
def e6MulE2 (x : E6 F) (y : E2 F) : Gad F (E6 F) := do
  let z0 ← e2Mul P x.b0 y
  let z1 ← e2Mul P x.b1 y
  let z2 ← e2Mul P x.b2 y
  pure ⟨z0, z1, z2⟩

/-- e6.rs:118-147 (`mul_by_12`). -/
def e6MulBy12 (x : E6 F) (b1 b2 : E2 F) : Gad F (E6 F) := do
  let t1 ← e2Mul P x.b1 b1
  let t2 ← e2Mul P x.b2 b2
  let c0 ← e2Add P x.b1 x.b2
  let tmp ← e2Add P b1 b2
  let c0 ← e2Mul P c0 tmp
  let tmp ← e2Add P t1 t2
  let c0 ← e2Sub P c0 tmp
  let c0 ← e2MulNonResidue P c0
  let c1 ← e2Add P x.b0 x.b1
  let c1 ← e2Mul P c1 b1
  let c1 ← e2Sub P c1 t1
  let tmp ← e2MulNonResidue P t2
  let c1 ← e2Add P c1 tmp
  let tmp ← e2Add P x.b0 x.b2
  let c2 ← e2Mul P b2 tmp
  let c2 ← e2Sub P c2 t2
  let c2 ← e2Add P c2 t1
  pure ⟨c0, c1, c2⟩

/-- e6.rs:148-161 (`mul_by_0`). -/
def e6MulBy0 (z : E6 F) (c0 : E2 F) : Gad F (E6 F) := do
  let a ← e2Mul P z.b0 c0
  let tmp ← e2Add P z.b0 z.b2
  let t2 ← e2Mul P c0 tmp
  let t2 ← e2Sub P t2 a
  let tmp ← e2Add P z.b0 z.b1
  let t1 ← e2Mul P c0 tmp
  let t1 ← e2Sub P t1 a
  pure ⟨a, t1, t2⟩

/-- e6.rs:162-189 (`mul_by_01`). -/
def e6MulBy01 (z : E6 F) (c0 c1 : E2 F) : Gad F (E6 F) := do
  let a ← e2Mul P z.b0 c0
  let b ← e2Mul P z.b1 c1
  let tmp ← e2Add P z.b1 z.b2
  let t0 ← e2Mul P c1 tmp
  let t0 ← e2Sub P t0 b
  let t0 ← e2MulNonResidue P t0
  let t0 ← e2Add P t0 a
  let t2 ← e2Mul P z.b2 c0
  let t2 ← e2Add P t2 b
  let t1 ← e2Add P c0 c1
  let tmp ← e2Add P z.b0 z.b1
  let t1 ← e2Mul P t1 tmp
  let tmp ← e2Add P a b
  let t1 ← e2Sub P t1 tmp
  pure ⟨t0, t1, t2⟩

/-- e6.rs:190-197 (`mul_by_non_residue`). -/
def e6MulNonResidue (x : E6 F) : Gad F (E6 F) := do
  let z0 ← e2MulNonResidue P x.b2
  pure ⟨z0, x.b0, x.b1⟩

/-- e6.rs:198-202 (`assert_isequal`). -/
def e6Equal (x y : E6 F) : Gad F Unit := do
  e2Equal P x.b0 y.b0
  e2Equal P x.b1 y.b1
  e2Equal P x.b2 y.b2

/-- e6.rs:221-258 (`mul_karatsuba_over_karatsuba`, `mul`). -/
def e6Mul (x y : E6 F) : Gad F (E6 F) := do
  let t0 ← e2Mul P x.b0 y.b0
  let t1 ← e2Mul P x.b1 y.b1
  let t2 ← e2Mul P x.b2 y.b2
  let c0 ← e2Add P x.b1 x.b2
  let tmp ← e2Add P y.b1 y.b2
  let c0 ← e2Mul P c0 tmp
  let tmp ← e2Add P t2 t1
  let c0 ← e2Sub P c0 tmp
  let c0 ← e2MulNonResidue P c0
  let c0 ← e2Add P c0 t0
  let c1 ← e2Add P x.b0 x.b1
  let tmp ← e2Add P y.b0 y.b1
  let c1 ← e2Mul P c1 tmp
  let tmp ← e2Add P t0 t1
  let c1 ← e2Sub P c1 tmp
  let tmp ← e2MulNonResidue P t2
  let c1 ← e2Add P c1 tmp
  let tmp ← e2Add P x.b0 x.b2
  let c2 ← e2Add P y.b0 y.b2
  let c2 ← e2Mul P c2 tmp
  let tmp ← e2Add P t0 t2
  let c2 ← e2Sub P c2 tmp
  let c2 ← e2Add P c2 t1
  pure ⟨c0, c1, c2⟩

/-- Six outputs of `new_hint`. -/
def e6Hint : Gad F (E6 F) := do
  let z0 ← e2Hint P
  let z1 ← e2Hint P
  let z2 ← e2Hint P
  pure ⟨z0, z1, z2⟩

/-- e6.rs:259-295 (`div`). -/
def e6Div (x y : E6 F) : Gad F (E6 F) := do
  let d ← e6Hint P
  let x' ← e6Mul P d y
  e6Equal P x x'
  pure d

/-- e6.rs:23-28 (`one`). -/
def e6One : E6 F := ⟨e2One P, e2Zero P, e2Zero P⟩

/-- e6.rs:300-331 (`inverse`). -/
def e6Inverse (x : E6 F) : Gad F (E6 F) := do
  let inv ← e6Hint P
  let one' ← e6Mul P inv x
  e6Equal P (e6One P) one'
  pure inv

/-- e12.rs:6-9 (`GE12`). -/
structure E12 (F : Type) where
  c0 : E6 F
  c1 : E6 F

/-- e12.rs:93-97 (`add`). -/
def e12Add (x y : E12 F) : Gad F (E12 F) := do
  let z0 ← e6Add P x.c0 y.c0
  let z1 ← e6Add P x.c1 y.c1
  pure ⟨z0, z1⟩

/-- e12.rs:98-102 (`sub`). -/
def e12Sub (x y : E12 F) : Gad F (E12 F) := do
  let z0 ← e6Sub P x.c0 y.c0
  let z1 ← e6Sub P x.c1 y.c1
  pure ⟨z0, z1⟩

/-- e12.rs:103-109 (`conjugate`). -/
def e12Conj (x : E12 F) : Gad F (E12 F) := do
  let z1 ← e6Neg P x.c1
  pure ⟨x.c0, z1⟩

/-- e12.rs:110-121 (`mul`). -/
def e12Mul (x y : E12 F) : Gad F (E12 F) := do
  let a ← e6Add P x.c0 x.c1
  let b ← e6Add P y.c0 y.c1
  let a ← e6Mul P a b
  let b ← e6Mul P x.c0 y.c0
  let c ← e6Mul P x.c1 y.c1
  let d ← e6Add P c b
  let z1 ← e6Sub P a d
  let z0 ← e6MulNonResidue P c
  let z0 ← e6Add P z0 b
  pure ⟨z0, z1⟩

/-- e12.rs:122-133 (`square`). -/
def e12Square (x : E12 F) : Gad F (E12 F) := do
  let c0 ← e6Sub P x.c0 x.c1
  let c3 ← e6MulNonResidue P x.c1
  let c3 ← e6Sub P x.c0 c3
  let c2 ← e6Mul P x.c0 x.c1
  let c0 ← e6Mul P c0 c3
  let c0 ← e6Add P c0 c2
  let z1 ← e6Double P c2
  let c2 ← e6MulNonResidue P c2
  let z0 ← e6Add P c0 c2
  pure ⟨z0, z1⟩

/-- e12.rs:387-409 (`mul_by_014`). -/
def e12MulBy014 (z : E12 F) (c0 c1 : E2 F) : Gad F (E12 F) := do
  let a ← e6MulBy01 P z.c0 c0 c1
  let b0 ← e2MulNonResidue P z.c1.b2
  let b : E6 F := ⟨b0, z.c1.b0, z.c1.b1⟩
  let d ← e2Add P c1 (e2One P)
  let zc1 ← e6Add P z.c1 z.c0
  let zc1 ← e6MulBy01 P zc1 c0 d
  let tmp ← e6Add P b a
  let zc1 ← e6Sub P zc1 tmp
  let zc0 ← e6MulNonResidue P b
  let zc0 ← e6Add P zc0 a
  pure ⟨zc0, zc1⟩

/-- e12.rs:410-430 (`mul_014_by_014`). -/
def e12Mul014 (d0 d1 c0 c1 : E2 F) : Gad F (E2 F × E2 F × E2 F × E2 F × E2 F) := do
  let x0 ← e2Mul P c0 d0
  let x1 ← e2Mul P c1 d1
  let x04 ← e2Add P c0 d0
  let tmp ← e2Add P c0 c1
  let x01 ← e2Add P d0 d1
  let x01 ← e2Mul P x01 tmp
  let tmp ← e2Add P x1 x0
  let x01 ← e2Sub P x01 tmp
  let x14 ← e2Add P c1 d1
  let z ← e2Add P (e2NonResidue P) x0
  pure (z, x01, x1, x04, x14)

/-- e12.rs:196-199 (`assert_isequal`). -/
def e12Equal (x y : E12 F) : Gad F Unit := do
  e6Equal P x.c0 y.c0
  e6Equal P x.c1 y.c1

/-- Twelve outputs of `new_hint`. -/
def e12Hint : Gad F (E12 F) := do
  let z0 ← e6Hint P
  let z1 ← e6Hint P
  pure ⟨z0, z1⟩

/-- e12.rs:200-265 (`div`; the code asks for 24 outputs and uses 12). -/
def e12Div (x y : E12 F) : Gad F (E12 F) := do
  let d ← e12Hint P
  let x' ← e12Mul P d y
  e12Equal P x x'
  pure d

/-- e12.rs:135-195 (`cyclotomic_square`). -/
def e12CycSquare (x : E12 F) : Gad F (E12 F) := do
  let t0 ← e2Square P x.c1.b1
  let t1 ← e2Square P x.c0.b0
  let t6 ← e2Add P x.c1.b1 x.c0.b0
  let t6 ← e2Square P t6
  let t6 ← e2Sub P t6 t0
  let t6 ← e2Sub P t6 t1
  let t2 ← e2Square P x.c0.b2
  let t3 ← e2Square P x.c1.b0
  let t7 ← e2Add P x.c0.b2 x.c1.b0
  let t7 ← e2Square P t7
  let t7 ← e2Sub P t7 t2
  let t7 ← e2Sub P t7 t3
  let t4 ← e2Square P x.c1.b2
  let t5 ← e2Square P x.c0.b1
  let t8 ← e2Add P x.c1.b2 x.c0.b1
  let t8 ← e2Square P t8
  let t8 ← e2Sub P t8 t4
  let t8 ← e2Sub P t8 t5
  let t8 ← e2MulNonResidue P t8
  let t0 ← e2MulNonResidue P t0
  let t0 ← e2Add P t0 t1
  let t2 ← e2MulNonResidue P t2
  let t2 ← e2Add P t2 t3
  let t4 ← e2MulNonResidue P t4
  let t4 ← e2Add P t4 t5
  let z00 ← e2Sub P t0 x.c0.b0
  let z00 ← e2Double P z00
  let z00 ← e2Add P z00 t0
  let z01 ← e2Sub P t2 x.c0.b1
  let z01 ← e2Double P z01
  let z01 ← e2Add P z01 t2
  let z02 ← e2Sub P t4 x.c0.b2
  let z02 ← e2Double P z02
  let z02 ← e2Add P z02 t4
  let z10 ← e2Add P t8 x.c1.b0
  let z10 ← e2Double P z10
  let z10 ← e2Add P z10 t8
  let z11 ← e2Add P t6 x.c1.b1
  let z11 ← e2Double P z11
  let z11 ← e2Add P z11 t6
  let z12 ← e2Add P t7 x.c1.b2
  let z12 ← e2Double P z12
  let z12 ← e2Add P z12 t7
  pure ⟨⟨z00, z01, z02⟩, ⟨z10, z11, z12⟩⟩

/-- e12.rs:548-573 (`frobenius`). -/
def e12Frob (x : E12 F) : Gad F (E12 F) := do
  let z00 ← e2Conj P x.c0.b0
  let z01 ← e2Conj P x.c0.b1
  let z02 ← e2Conj P x.c0.b2
  let z10 ← e2Conj P x.c1.b0
  let z11 ← e2Conj P x.c1.b1
  let z12 ← e2Conj P x.c1.b2
  let z01 ← e2MulNr12 P z01
  let z02 ← e2MulNr14 P z02
  let z10 ← e2MulNr11 P z10
  let z11 ← e2MulNr13 P z11
  let z12 ← e2MulNr15 P z12
  pure ⟨⟨z00, z01, z02⟩, ⟨z10, z11, z12⟩⟩

/-- e12.rs:574-593 (`frobenius_square`). -/
def e12Frob2 (x : E12 F) : Gad F (E12 F) := do
  let z01 ← e2MulNr22 P x.c0.b1
  let z02 ← e2MulNr24 P x.c0.b2
  let z10 ← e2MulNr21 P x.c1.b0
  let z11 ← e2MulNr23 P x.c1.b1
  let z12 ← e2MulNr25 P x.c1.b2
  pure ⟨⟨x.c0.b0, z01, z02⟩, ⟨z10, z11, z12⟩⟩

/-- e12.rs:54-87 (`one`). -/
def e12One : E12 F := ⟨e6One P, ⟨e2Zero P, e2Zero P, e2Zero P⟩⟩

/-- e12.rs:266-320 (`inverse`). -/
def e12Inverse (x : E12 F) : Gad F (E12 F) := do
  let inv ← e12Hint P
  let one' ← e12Mul P inv x
  e12Equal P (e12One P) one'
  pure inv

/-- e12.rs:321-373 (`copy`). -/
def e12Copy (x : E12 F) : Gad F (E12 F) := do
  let res ← e12Hint P
  e12Equal P x res
  pure res

/-- The loop of e12.rs:457-469. -/
def e12SquareLoop : Nat → E12 F → Gad F (E12 F)
  | 0, z => pure z
  | n + 1, z => do
    let z ← e12CycSquare P z
    let z ← e12Copy P z
    e12SquareLoop n z

/-- e12.rs:457-469 (`n_square_gs_with_hint`, of `n ≥ 1`). -/
def e12SquareN (z : E12 F) (n : Nat) : Gad F (E12 F) := do
  let z ← e12Copy P z
  let z ← e12SquareLoop P (n - 1) z
  e12CycSquare P z

/-- e12.rs:431-444 (`expt`). -/
def e12Expt (x : E12 F) : Gad F (E12 F) := do
  let z ← e12CycSquare P x
  let z ← e12Mul P x z
  let z ← e12SquareN P z 2
  let z ← e12Mul P x z
  let z ← e12SquareN P z 3
  let z ← e12Mul P x z
  let z ← e12SquareN P z 9
  let z ← e12Mul P x z
  let z ← e12SquareN P z 32
  let z ← e12Mul P x z
  let z ← e12SquareN P z 15
  e12CycSquare P z

/-- e12.rs:470-546 (`assert_final_exponentiation_is_one`). -/
def e12FinalExp (x : E12 F) : Gad F Unit := do
  let residue ← e12Hint P
  let scaling ← e6Hint P
  let t0 ← e12Frob P residue
  let t1 ← e12Expt P residue
  let t0 ← e12Mul P t0 t1
  let t1 ← e12Mul P x ⟨scaling, ⟨e2Zero P, e2Zero P, e2Zero P⟩⟩
  e12Equal P t0 t1

end Verif.Std.Emu
