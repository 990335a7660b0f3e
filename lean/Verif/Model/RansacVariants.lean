import Mathlib.Algebra.Order.Monoid.WithTop
import Verif.Model.Quality
import Verif.Model.Ransac

/-!
# Model of `CreateAndInitializeRansacVariant` (sfm/create_and_initialize_ransac_variant.h) and of the call of `Estimate`

A residual is a real number or `⊤`: the largest double, infinity or not a number, none of which is below a threshold.
-/

namespace Theia
namespace RansacVariants

/-- `RansacType` (create_and_initialize_ransac_variant.h:51-56). -/
inductive RansacType where
  | ransac
  | prosac
  | lmed
  | exhaustive
  deriving DecidableEq, Repr

/-- The members of `RansacParameters` used (sample_consensus_estimator.h:57-114). -/
structure Settings where
  errorThresh : ℝ
  useMle : Bool
  params : Ransac.Params

/-- The quality measurement of the variant (sample_consensus_estimator.h:200-212; lmed.h:62-69 replaces it).
`lmed` is `LmedQualityMeasurement::ComputeCost`. -/
noncomputable def quality (t : RansacType) (s : Settings) (lmed : List (WithTop ℝ) → WithTop ℝ × List Nat)
    (residuals : List (WithTop ℝ)) : WithTop ℝ × List Nat :=
  if t = .lmed then lmed residuals
  else if s.useMle then Quality.mle (s.errorThresh : WithTop ℝ) residuals
  else
    let q := Quality.inlierSupport (s.errorThresh : WithTop ℝ) residuals
    (((q.1 : ℝ) : WithTop ℝ), q.2)

open Classical in
/-- The constructor (sample_consensus_estimator.h:187-198), `Initialize` of the variant (the sampler of exhaustive_ransac.h:58-62
checks the sample size, exhaustive_sampler.cc:45-52), `Initialize` of the sampler (random_sampler.cc:53-54; the one of PROSAC,
prosac_sampler.cc:53-58, checks nothing) and `Estimate`. `error` is `Error` of the estimator, `sample` what the sampler returns. -/
noncomputable def consensus {D M : Type} (t : RansacType) (s : Settings)
    (lmed : List (WithTop ℝ) → WithTop ℝ × List Nat) (data : List D) (sample : Nat → Option (List Nat))
    (estimate : List D → Option (List M)) (sampleSize : Nat) (error : D → M → WithTop ℝ) (initial : M) :
    Outcome (M × Ransac.Summary) :=
  if 0 < s.errorThresh ∧ s.params.Valid then
    if t = .exhaustive ∧ sampleSize ≠ 2 then .abort
    else if t ≠ .prosac ∧ data.length < sampleSize then .abort
    else
      Ransac.run s.params data sample estimate sampleSize
        (fun m => quality t s lmed (data.map fun d => error d m)) initial
  else .abort

end RansacVariants
end Theia
