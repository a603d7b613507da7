import Verif.Model.RoundedAIC

/-!
# Model: the `AIC` object after agglomeration
-/

namespace PSP.Model

/-- The state of the member `_psp` after the loop `while (_psp.agglomerate())` of `Agglomerative_PSP::run`
(agglomerative.cpp:85-88). A program that uses `IC::AIC` itself (AIC.hpp:257-300) runs the same loop and then calls the
queries of `HC` (Core.hpp:228-350). Not modelled: queries between two calls, which `C30`, `C31` and `C32` cover. -/
def aicObject (mnb : SF → Outcome (List ℚ)) (f : SF) (fnTol : ℚ) : ℕ → HC → Outcome HC
  | 0, _ => .fuel
  | k + 1, h => do
    let (h', more) ← agglomerate mnb f fnTol h
    if more then aicObject mnb f fnTol k h' else return h'

/-- The same loop with rounding. -/
def aicObjectF (fl : ℚ → ℚ) (mnb : SF → Outcome (List ℚ)) (f : SF) (fnTol : ℚ) : ℕ → HC → Outcome HC
  | 0, _ => .fuel
  | k + 1, h => do
    let (h', more) ← agglomerateF fl mnb f fnTol h
    if more then aicObjectF fl mnb f fnTol k h' else return h'

end PSP.Model
