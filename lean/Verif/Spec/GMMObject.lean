import Verif.Spec.GMM

/-!
# What a Gaussian mixture object has learned after a history of calls

Written without reference to the states that the object goes through.
-/

namespace OpenML.Spec

open Matrix

/-- A call of `fit`: data and the random numbers of each initialisation. -/
structure MixtureFit (K d : Nat) where
  n : Nat
  X : Matrix (Fin n) (Fin d) ℝ
  draws : Nat → Matrix (Fin n) (Fin K) ℝ

/-- The random numbers are not negative, and those of a sample are not all zero. -/
def MixtureFit.Proper {K d : Nat} (c : MixtureFit K d) : Prop :=
  (∀ r i k, 0 ≤ c.draws r i k) ∧ ∀ r i, 0 < ∑ k, c.draws r i k

/-- The constants of an object: pooled covariances or one for each component, machine epsilon, what is added to the diagonal,
tolerance, iterations and initialisations. -/
structure MixtureSetting where
  pooled : Bool
  eps : ℝ
  reg : ℝ
  tol : ℝ
  maxIter : Nat
  numInit : Nat

/-- The EM iteration of initialisation `r`. -/
noncomputable def MixtureFit.em {K d : Nat} (c : MixtureFit K d) (s : MixtureSetting) (r : Nat) : Nat → Mixture K d :=
  emSeq s.pooled s.eps s.reg c.X fun i k => c.draws r i k / ∑ l, c.draws r i l

/-- Initialisation `r` ends at index `T r`, because of the tolerance if `conv r`. -/
def MixtureFit.Ends {K d : Nat} (c : MixtureFit K d) (s : MixtureSetting) (T : Nat → Nat) (conv : Nat → Bool) : Prop :=
  ∀ r < s.numInit, EMStopsAt (fun t => (c.em s r t).meanLogLik c.X) s.maxIter s.tol (T r) (conv r)

/-- After the calls listed, the object works with the mixture `θ`, reports the inverse covariances `P` and the lower bound `b`:
a call with fewer samples than components changes nothing; a call none of whose initialisations gets below the tolerance changes the
mixture to that of its last initialisation and nothing else; any other call changes the mixture to the best one, appends its inverse
covariances, and changes the bound. -/
inductive MixtureHistory {K d : Nat} (s : MixtureSetting) :
    List (MixtureFit K d) → Option (Mixture K d) → List (Matrix (Fin d) (Fin d) ℝ) → Option ℝ → Prop
  | start : MixtureHistory s [] none [] none
  | refused {L θ P b} (c : MixtureFit K d) : MixtureHistory s L θ P b → c.n < K → MixtureHistory s (L ++ [c]) θ P b
  | failed {L θ P b} (c : MixtureFit K d) (T : Nat → Nat) (conv : Nat → Bool) : MixtureHistory s L θ P b → K ≤ c.n → c.Ends s T conv →
      (∀ r < s.numInit, conv r = false) → MixtureHistory s (L ++ [c]) (some (c.em s (s.numInit - 1) s.maxIter)) P b
  | fitted {L θ P b} (c : MixtureFit K d) (T : Nat → Nat) (conv : Nat → Bool) (r : Nat) : MixtureHistory s L θ P b → K ≤ c.n →
      c.Ends s T conv → (∃ r < s.numInit, conv r = true) → IsFirstArgmax (fun r => (c.em s r (T r)).meanLogLik c.X) s.numInit r →
      MixtureHistory s (L ++ [c]) (some (c.em s r (T r + 1))) (P ++ List.ofFn fun k => ((c.em s r (T r + 1)).cov k)⁻¹)
        (some ((c.em s r (T r)).meanLogLik c.X))

end OpenML.Spec
