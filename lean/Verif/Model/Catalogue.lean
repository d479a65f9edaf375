import Verif.Model.Vallado
import Verif.Model.Delatorre
import Verif.Model.Izzo
import Verif.Model.Gooding
import Verif.Model.Thorne
import Verif.Model.Der
import Verif.Model.Arora
import Verif.Model.Jiang
import Verif.Model.McElreath
import Verif.Model.Negrete
import Verif.Model.Pan
import Verif.Model.Gauss
import Verif.Model.Battin
import Verif.Model.Avanzini

/-! # The catalogue of solvers (`__init__.py`) -/

set_option autoImplicit false

namespace Lamberthub

/-- The names imported by `__init__.py` l.3-16. -/
inductive Solver where
  | avanzini2008 | battin1984 | gauss1809 | jiang2016 | pan2016 | delatorre2018 | thorne2004
  | arora2013 | der2011 | gooding1990 | izzo2015 | mcelreath2025 | negrete2024 | vallado2013
deriving DecidableEq, Repr

/-- The routines of scipy the solvers call. -/
structure Env where
  brentq : Brent
  minimize : Minimizer

/-- The arguments common to all the solvers. -/
structure Args where
  mu : ℝ
  r1 : V3
  r2 : V3
  tof : ℝ
  M : ℤ := 0
  isPrograde : Bool := true
  isLowPath : Bool := true
  maxiter : ℕ := 35
  atol : ℝ := 1e-5
  rtol : ℝ := 1e-7

/-- The call `solver(mu, r1, r2, tof, M, is_prograde, is_low_path, maxiter, atol, rtol,
full_output)`; `clock` is the measured time.  `izzo2015` has no argument `full_output`
(`izzo.py` l.11-22), the model ignores it there. -/
noncomputable def solve (env : Env) (s : Solver) (a : Args) (full : Bool) (clock : ℝ) : Py Output :=
  match s with
  | .avanzini2008 => avanzini2008 a.mu a.r1 a.r2 a.tof a.M a.isPrograde a.isLowPath a.maxiter a.atol a.rtol full clock
  | .battin1984 => battin1984 a.mu a.r1 a.r2 a.tof a.M a.isPrograde a.isLowPath a.maxiter a.atol a.rtol full clock
  | .gauss1809 => gauss1809 a.mu a.r1 a.r2 a.tof a.M a.isPrograde a.isLowPath a.maxiter a.atol a.rtol full clock
  | .jiang2016 => jiang2016 a.mu a.r1 a.r2 a.tof a.M a.isPrograde a.isLowPath a.maxiter a.atol a.rtol full clock
  | .pan2016 => pan2016 env.brentq a.mu a.r1 a.r2 a.tof a.M a.isPrograde a.isLowPath a.maxiter a.atol a.rtol full clock
  | .delatorre2018 => delatorre2018 a.mu a.r1 a.r2 a.tof a.M a.isPrograde a.isLowPath a.maxiter a.atol a.rtol full clock
  | .thorne2004 => thorne2004 env.brentq a.mu a.r1 a.r2 a.tof a.M a.isPrograde a.isLowPath a.maxiter a.atol a.rtol full clock
  | .arora2013 => arora2013 env.minimize env.brentq a.mu a.r1 a.r2 a.tof a.M a.isPrograde a.isLowPath a.maxiter a.atol a.rtol full clock
  | .der2011 => der2011 env.brentq a.mu a.r1 a.r2 a.tof a.M a.isPrograde a.isLowPath a.maxiter a.atol a.rtol full clock
  | .gooding1990 => gooding1990 a.mu a.r1 a.r2 a.tof a.M a.isPrograde a.isLowPath a.maxiter a.atol a.rtol full clock
  | .izzo2015 => do
    let (v1, v2) ← izzo2015 a.mu a.r1 a.r2 a.tof a.M a.isPrograde a.isLowPath a.maxiter a.atol a.rtol
    .ok (.plain v1 v2)
  | .mcelreath2025 => mcelreath2025 a.mu a.r1 a.r2 a.tof a.M a.isPrograde a.isLowPath a.maxiter a.atol a.rtol full clock
  | .negrete2024 => negrete2024 a.mu a.r1 a.r2 a.tof a.M a.isPrograde a.isLowPath a.maxiter a.atol a.rtol full clock
  | .vallado2013 => vallado2013 a.mu a.r1 a.r2 a.tof a.M a.isPrograde a.isLowPath a.maxiter a.atol a.rtol full clock

/-- `__init__.py` l.21-36. -/
def ALL_SOLVERS : List Solver :=
  [.gauss1809, .battin1984, .jiang2016, .pan2016, .gooding1990, .der2011, .thorne2004, .avanzini2008,
   .arora2013, .vallado2013, .izzo2015, .negrete2024, .mcelreath2025, .delatorre2018]

/-- `__init__.py` l.39-52. -/
def ZERO_REV_SOLVERS : List Solver :=
  [.battin1984, .jiang2016, .pan2016, .gooding1990, .der2011, .thorne2004, .avanzini2008, .arora2013,
   .izzo2015, .negrete2024, .mcelreath2025, .delatorre2018]

/-- `__init__.py` l.55-63. -/
def MULTI_REV_SOLVERS : List Solver :=
  [.gooding1990, .der2011, .arora2013, .izzo2015, .negrete2024, .mcelreath2025, .delatorre2018]

/-- `__init__.py` l.66. -/
def NON_ROBUST_SOLVERS : List Solver := [.gauss1809]

/-- `__init__.py` l.69-77. -/
def ROBUST_SOLVERS : List Solver :=
  [.gooding1990, .der2011, .arora2013, .izzo2015, .negrete2024, .mcelreath2025, .delatorre2018]

end Lamberthub
