import Mathlib.Analysis.SpecialFunctions.Pow.Real

/-!
# The Gauss–Kronrod rules (`rust/src/quad.rs:243-475`)

Real arithmetic; the machine constants `EPMACH`, `UFLOW`, `OFLOW` are parameters, so that nothing depends on
their numerical values.  The integrand may be any function; the list of points at which it was evaluated is
part of what a rule returns, which is how evaluation counts are made observable.  The two loops over the
tabulated nodes are folds over the tables; the tables pair each abscissa with its weights.
-/

namespace Hazma.Quad

/-- `EPMACH`, `UFLOW`, `OFLOW` (`quad.rs:74-81`). -/
structure Mach where
  eps : ℝ
  uflow : ℝ
  oflow : ℝ

/-- All three are positive, and `EPMACH` is small. -/
def Mach.Ok (M : Mach) : Prop := 0 < M.eps ∧ M.eps < 1 / 10000 ∧ 0 < M.uflow ∧ 0 < M.oflow

/-- The binary64 values. -/
noncomputable def binary64 : Mach := ⟨2⁻¹ ^ 52, 2⁻¹ ^ 1022, (2 - 2⁻¹ ^ 52) * 2 ^ 1023⟩

/-- `KronrodOutcome` (`quad.rs:243-254`), with the evaluated points. -/
structure KOut where
  result : ℝ
  abserr : ℝ
  resabs : ℝ
  resasc : ℝ
  pts : List ℝ

/-- A rule: centre weights (Kronrod, Gauss), the nodes shared with the Gauss rule as
`(abscissa, Kronrod weight, Gauss weight)`, and the added nodes as `(abscissa, Kronrod weight)`. -/
structure Rule where
  wkc : ℝ
  wgc : ℝ
  gauss : List (ℝ × ℝ × ℝ)
  extra : List (ℝ × ℝ)

/-- `XGK15`, `WGK15`, `WG15` (`quad.rs:265-298`). -/
noncomputable def rule15 : Rule where
  wkc := 0.209482141084727828012999174891714
  wgc := 0.417959183673469387755102040816327
  gauss :=
    [(0.949107912342758524526189684047851, 0.063092092629978553290700663189204,
        0.129484966168869693270611432679082),
     (0.741531185599394439863864773280788, 0.140653259715525918745189590510238,
        0.279705391489276667901467771423780),
     (0.405845151377397166906606412076961, 0.190350578064785409913256402421014,
        0.381830050505118944950369775488975)]
  extra :=
    [(0.991455371120812639206854697526329, 0.022935322010529224963732008058970),
     (0.864864423359769072789712788640926, 0.104790010322250183839876322541518),
     (0.586087235467691130294144838258730, 0.169004726639267902826583426598550),
     (0.207784955007898467600689403773245, 0.204432940075298892414161999234649)]

/-- `XGK21`, `WGK21`, `WG21` (`quad.rs:301-337`); the 10-point Gauss rule has no centre weight. -/
noncomputable def rule21 : Rule where
  wkc := 0.149445554002916905664936468389821
  wgc := 0
  gauss :=
    [(0.973906528517171720077964012084452, 0.032558162307964727478818972459390,
        0.066671344308688137593568809893332),
     (0.865063366688984510732096688423493, 0.075039674810919952767043140916190,
        0.149451349150580593145776339657697),
     (0.679409568299024406234327365114874, 0.109387158802297641899210590325805,
        0.219086362515982043995534934228163),
     (0.433395394129247190799265943165784, 0.134709217311473325928054001771707,
        0.269266719309996355091226921569469),
     (0.148874338981631210884826001129720, 0.147739104901338491374841515972068,
        0.295524224714752870173892994651338)]
  extra :=
    [(0.995657163025808080735527280689003, 0.011694638867371874278064396062192),
     (0.930157491355708226001207180059508, 0.054755896574351996031381300244580),
     (0.780817726586416897063717578345042, 0.093125454583697605535065465083366),
     (0.562757134668604683339000099272694, 0.123491976262065851077958109831074),
     (0.294392862701460198131126603103866, 0.142775938577060080797094273138717)]

/-- `kronrod_error` (`quad.rs:344-362`). -/
noncomputable def kronrodError (M : Mach) (resk resg resabs resasc hlgth : ℝ) (pts : List ℝ) : KOut :=
  let dhlgth := |hlgth|
  let result := resk * hlgth
  let resabs := resabs * dhlgth
  let resasc := resasc * dhlgth
  let abserr0 := |(resk - resg) * hlgth|
  let abserr1 := if resasc ≠ 0 ∧ abserr0 ≠ 0
    then resasc * min 1 ((200 * abserr0 / resasc) ^ (1.5 : ℝ)) else abserr0
  let abserr2 := if resabs > M.uflow / (50 * M.eps) then max (M.eps * 50 * resabs) abserr1 else abserr1
  ⟨result, abserr2, resabs, resasc, pts⟩

/-- The running sums of the node loops; `vals` keeps `(weight, fv1, fv2)` for the last loop. -/
structure Acc where
  resg : ℝ
  resk : ℝ
  resabs : ℝ
  vals : List (ℝ × ℝ × ℝ)
  pts : List ℝ

/-- One turn of the loop over the Gauss abscissae (`quad.rs:385-396` and `442-453`). -/
noncomputable def gaussStep (f : ℝ → ℝ) (c h : ℝ) (s : Acc) (p : ℝ × ℝ × ℝ) : Acc :=
  let absc := h * p.1
  let v1 := f (c - absc)
  let v2 := f (c + absc)
  ⟨s.resg + p.2.2 * (v1 + v2), s.resk + p.2.1 * (v1 + v2), s.resabs + p.2.1 * (|v1| + |v2|),
    s.vals ++ [(p.2.1, v1, v2)], s.pts ++ [c - absc, c + absc]⟩

/-- One turn of the loop over the added abscissae (`quad.rs:399-409` and `456-466`). -/
noncomputable def extraStep (f : ℝ → ℝ) (c h : ℝ) (s : Acc) (p : ℝ × ℝ) : Acc :=
  let absc := h * p.1
  let v1 := f (c - absc)
  let v2 := f (c + absc)
  ⟨s.resg, s.resk + p.2 * (v1 + v2), s.resabs + p.2 * (|v1| + |v2|),
    s.vals ++ [(p.2, v1, v2)], s.pts ++ [c - absc, c + absc]⟩

/-- `qk15` and `qk21` (`quad.rs:368-418` and `424-475`), which differ in their tables only. -/
noncomputable def kronrod (R : Rule) (M : Mach) (f : ℝ → ℝ) (a b : ℝ) : KOut :=
  let centr := 0.5 * (a + b)
  let hlgth := 0.5 * (b - a)
  let fc := f centr
  let s0 : Acc := ⟨fc * R.wgc, R.wkc * fc, |R.wkc * fc|, [], [centr]⟩
  let s1 := R.gauss.foldl (gaussStep f centr hlgth) s0
  let s2 := R.extra.foldl (extraStep f centr hlgth) s1
  let reskh := s2.resk * 0.5
  let resasc := s2.vals.foldl (fun t v => t + v.1 * (|v.2.1 - reskh| + |v.2.2 - reskh|))
    (R.wkc * |fc - reskh|)
  kronrodError M s2.resk s2.resg s2.resabs resasc hlgth s2.pts

/-- `qk15` (`quad.rs:368-418`). -/
noncomputable def qk15 := kronrod rule15
/-- `qk21` (`quad.rs:424-475`). -/
noncomputable def qk21 := kronrod rule21

end Hazma.Quad
