import Verif.Spec.KMeans
import Verif.Model.Res
import Mathlib.Data.Real.Basic
import Mathlib.Data.ENNReal.Real

/-!
# Specification: cost of a result of clustering
-/

namespace OpenML.Spec

/-- The inertia of the centroids of a successful run; a failure has infinite cost. -/
noncomputable def clusterCost (rows : List (List ℝ)) : Res (List (List ℝ)) → ENNReal
  | .ok C => ENNReal.ofReal (inertia rows C)
  | _ => ⊤

end OpenML.Spec
