import Verif.Model.KernelPred

/-!
# Model of the curves that `summarise_samples` (`gpcm/util.py`) returns

The fields `samples` and `all_samples`, for a matrix of samples. The other fields are in `Model/KernelPred.lean`.
-/

namespace Gpcm

/-- The field `all_samples` (util.py:77): the transposed samples, one row per input. -/
noncomputable def allCurves (n : ℕ) (samples : List (List ℝ)) (db : Bool) : List (List ℝ) :=
  (atInputs n samples).map fun row => row.map (Util.transform db)

/-- The field `samples` (util.py:57, 76): the columns that come first in the random permutation `perm` of the samples, at most three. -/
noncomputable def shownCurves (perm : List ℕ) (n : ℕ) (samples : List (List ℝ)) (db : Bool) : List (List ℝ) :=
  let inds := perm.take 3
  (atInputs n samples).map fun row => (inds.map fun j => row.getD j 0).map (Util.transform db)

end Gpcm
