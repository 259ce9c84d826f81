import Verif.Model.Vec2

/-! # Equation solvers (`/repo/src/src/rmath.cpp:5-8, 648-825`) -/

namespace River
variable {K : Type}

/-- `inline bool is_zero(double v)` (`rmath.cpp:5-8`). -/
def isZero [FNum K] (v : K) : Bool :=
  let err : K := FNum.lit (1 / 100000000)
  (FNum.neg err <. v) && (v <. err)

/-- `quad_equa_result resolv_quad_equa(a, b, c)` (`rmath.cpp:648-677`): the entries of `data` below `count`. -/
def resolvQuad [FTrans K] (a b c : K) : List K :=
  if isZero a then
    if isZero b then [] else [FNum.neg c /. b]
  else
    let k := b *. b -. FNum.lit 4 *. a *. c
    if isZero k then [FNum.neg b /. (FNum.lit 2 *. a)]
    else if FNum.lit 0 <. k then
      let sqrtK := FTrans.sqrt k
      [(FNum.neg b +. sqrtK) /. (FNum.lit 2 *. a), (FNum.neg b -. sqrtK) /. (FNum.lit 2 *. a)]
    else []

/-- `cubic_equa_result resolv_cubic_equa(a3, a2, a1, a0)` (`rmath.cpp:679-825`): the entries of `data` below
`count`. The local `pi` of `rmath.cpp:816` is `3.1415926535`. -/
def resolvCubic [FTrans K] (a3 a2 a1 a0 : K) : List K :=
  if isZero a3 then resolvQuad a2 a1 a0
  else
    let a := a2 /. a3
    let b := a1 /. a3
    let c := a0 /. a3
    let aPow2 := a *. a
    let p := b -. aPow2 /. FNum.lit 3
    let q := FNum.lit 2 *. aPow2 *. a /. FNum.lit 27 -. a *. b /. FNum.lit 3 +. c
    let k := FTrans.powi (q /. FNum.lit 2) 2 +. FTrans.powi (p /. FNum.lit 3) 3
    if isZero k then
      let v1 := FTrans.cbrt (FNum.neg q /. FNum.lit 2)
      if isZero v1 then [FNum.lit 0 -. a /. FNum.lit 3]
      else [v1 *. FNum.lit 2 -. a /. FNum.lit 3, FNum.neg v1 -. a /. FNum.lit 3]
    else if FNum.lit 0 <. k then
      let sqrtk := FTrans.sqrt k
      let v1 := FTrans.cbrt (FNum.neg q /. FNum.lit 2 +. sqrtk)
      let w1 := FNum.neg p /. (FNum.lit 3 *. v1)
      [v1 +. w1 -. a /. FNum.lit 3]
    else
      let sqrtMinusK := FTrans.sqrt (FNum.neg k)
      let tanPhi := FNum.lit (-2) *. sqrtMinusK /. q
      let phi := FTrans.atan tanPhi
      let minus := if tanPhi <. FNum.lit 0 then FNum.lit (-1) else FNum.lit 1
      let r := FTrans.sqrt (q *. q /. FNum.lit 4 -. k)
      let AAA := FNum.lit 2 *. FTrans.cbrt r
      let pi : K := FNum.lit (31415926535 / 10000000000)
      [minus *. AAA *. FTrans.cos (phi /. FNum.lit 3) -. a /. FNum.lit 3,
       minus *. AAA *. FTrans.cos ((phi +. FNum.lit 2 *. pi) /. FNum.lit 3) -. a /. FNum.lit 3,
       minus *. AAA *. FTrans.cos ((phi +. FNum.lit 4 *. pi) /. FNum.lit 3) -. a /. FNum.lit 3]

end River
