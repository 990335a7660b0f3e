import Verif.Model.GeometricVerification
import Mathlib.Data.List.Forall2

/-!
# What geometric verification should do
-/

namespace Theia.Spec

open Verification

variable {F C P I : Type}

/-- The correspondence `f` is that of match `m`. -/
def IsCorrespondence (kps1 kps2 : List F) (m : Match) (f : F × F) : Prop :=
  kps1[m.1]? = some f.1 ∧ kps2[m.2]? = some f.2

/-- The checks before bundle adjustment: enough angle, a triangulated point, and small reprojection errors of
it in both views. -/
def Triangulates (e : Env F C P I) (c1 c2 : C) (f : F × F) (p : P) : Prop :=
  e.angleOk c1 c2 f.1 f.2 = true ∧ e.triangulate c1 c2 f.1 f.2 = some p ∧
    e.acceptInitial c1 f.1 p = true ∧ e.acceptInitial c2 f.2 p = true

/-- The check after bundle adjustment. -/
def Fits (e : Env F C P I) (c1 c2 : C) (f : F × F) (p : P) : Prop :=
  e.acceptFinal c1 f.1 p = true ∧ e.acceptFinal c2 f.2 p = true

/-- Bundle adjustment moves the points but keeps their number. -/
def KeepsPoints (e : Env F C P I) : Prop :=
  ∀ corrs c1 c2 ps c1' c2' ps', e.adjust corrs c1 c2 ps = some (c1', c2', ps') → ps'.length = ps.length

end Theia.Spec
