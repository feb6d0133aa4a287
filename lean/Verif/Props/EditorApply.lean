import Verif.Model.EditorApply
import Mathlib.Tactic.NormNum

/-!
Property C107: what a model editor does to the outputs of the models.
-/
set_option linter.unusedSectionVars false

namespace Verif.Props.Editor

open Verif.Editor

variable {E X O M V : Type}

/-! ### Specification -/

/-- The outputs `f(w, x)` of the model, edited once, where the editor sees the forward pass `g` and the parameters `p`. -/
def editedOnce {U : Type} (ed : ModelEditor E X O M) (g : Forward (Dict U) X O M) (p : Dict U) (e : E) (x : X) :
    Except String (O × M) → Except String (O × M)
  | .error s => .error s
  | .ok r => .ok (ed.out e g p x r.1, r.2)

/-- Without an editor all managers return the outputs of the model, given the frozen parameters of a state. -/
theorem C107_none (f : V → X → Except String (O × M)) (w : V) (e : E) (x : X) :
    classApply f none ⟨true, ⟨w, e⟩⟩ x = f w x ∧ hfApply f none ⟨true, ⟨w, e⟩⟩ x = f w x ∧
    regApply f none ⟨true, ⟨w, e⟩⟩ x = f w x ∧ sngpFeatures f none ⟨true, ⟨w, e⟩⟩ x = f w x :=
  ⟨rfl, rfl, rfl, rfl⟩

theorem run_once {U : Type} (ed : ModelEditor E X O M) (e : E) (x : X) (g : Forward (Dict U) X O M) (v : U) :
    runEditor ed e g ⟨true, v⟩ x = editedOnce ed g ⟨!ed.unfreezes, v⟩ e x (g ⟨!ed.unfreezes, v⟩ x) := by
  unfold runEditor
  cases hu : ed.unfreezes
  · simp only [bind, Except.bind, Bool.not_false, Bool.false_eq_true, if_false]
    cases g ⟨true, v⟩ x <;> rfl
  · simp only [bind, Except.bind, Bool.not_true, if_true, Dict.unfreeze]
    cases g ⟨false, v⟩ x <;> rfl

/-- **C107.** In regression and with transformers, an editor's transformation is applied exactly once to the outputs of the model, it
sees the model's own forward pass and parameters, and the errors of the model are passed on. -/
theorem C107_once (ed : ModelEditor E X O M) (f : V → X → Except String (O × M)) (w : V) (e : E) (x : X) :
    regApply f (some ed) ⟨true, ⟨w, e⟩⟩ x = editedOnce ed (fun p x => f p.val.model x) ⟨!ed.unfreezes, Params.mk w e⟩ e x (f w x) ∧
    hfApply f (some ed) ⟨true, ⟨w, e⟩⟩ x = editedOnce ed (fun v x => f v.val x) ⟨!ed.unfreezes, w⟩ e x (f w x) :=
  ⟨run_once ed e x _ _, run_once ed e x _ _⟩

/-- **C107.** In classification the same holds of an editor that does not unfreeze the parameters. -/
theorem C107_class (ed : ModelEditor E X O M) (hu : ed.unfreezes = false) (f : V → X → Except String (O × M)) (w : V) (e : E) (x : X) :
    classApply f (some ed) ⟨true, ⟨w, e⟩⟩ x = editedOnce ed (fun v x => f v.val x) ⟨false, w⟩ e x (f w x) := by
  unfold classApply runEditor
  simp only [getModel, Dict.unfreeze, bind, Except.bind, hu, if_true, Bool.false_eq_true, if_false]
  cases f w x <;> rfl

/-- **C107: failure.** In classification the probit editor, and any other that unfreezes the parameters, always raises: the manager has
unfrozen them before. -/
theorem C107_probit_false (ed : ModelEditor E X O M) (hu : ed.unfreezes = true) (f : V → X → Except String (O × M)) (b : Bool) (w : V)
    (e : E) (x : X) : classApply f (some ed) ⟨b, ⟨w, e⟩⟩ x = .error "AttributeError" := by
  unfold classApply runEditor
  cases b <;> simp [getModel, Dict.unfreeze, bind, Except.bind, hu]

/-- **C107: failure.** So it does with SNGP. -/
theorem C107_sngp_probit_false (ed : ModelEditor E X O M) (hu : ed.unfreezes = true) (f : V → X → Except String (O × M)) (b : Bool)
    (w : V) (e : E) (x : X) : sngpFeatures f (some ed) ⟨b, ⟨w, e⟩⟩ x = .error "AttributeError" := by
  unfold sngpFeatures runEditor
  cases b
  · simp [Dict.unfreeze, bind, Except.bind, hu]
  · simp [Dict.unfreeze, bind, Except.bind, hu, C107_probit_false]

/-- An editor that maps the outputs by `h`, whatever the rest. -/
def mapEditor (h : E → O → O) : ModelEditor E X O M := ⟨false, fun e _ _ _ o => h e o⟩

/-- **C107: failure.** With SNGP an editor is applied twice to the outputs of the feature extractor. -/
theorem C107_sngp_twice_false (h : E → O → O) (f : V → X → Except String (O × M)) (w : V) (e : E) (x : X) (o : O) (m : M)
    (hf : f w x = .ok (o, m)) :
    sngpFeatures f (some (mapEditor h)) ⟨true, ⟨w, e⟩⟩ x = .ok (h e (h e o), m) ∧
    classApply f (some (mapEditor h)) ⟨true, ⟨w, e⟩⟩ x = .ok (h e o, m) := by
  constructor <;> simp [sngpFeatures, classApply, runEditor, mapEditor, getModel, Dict.unfreeze, bind, Except.bind, hf]

/-- A model `x ↦ w x`, an editor that divides by its parameter. -/
example :
    (sngpFeatures (M := Unit) (fun (w x : ℕ) => .ok (w * x, ())) (some (mapEditor fun e o => o / e)) ⟨true, ⟨6, 2⟩⟩ 2).toOption =
      some (3, ()) ∧
    (regApply (M := Unit) (fun (w x : ℕ) => .ok (w * x, ())) (some (mapEditor fun e o => o / e)) ⟨true, ⟨6, 2⟩⟩ 2).toOption =
      some (6, ()) ∧
    (hfApply (M := Unit) (fun (w x : ℕ) => .ok (w * x, ())) (some ⟨true, fun e _ _ _ o => o / e⟩) ⟨true, ⟨6, 2⟩⟩ 2).toOption =
      some (6, ()) ∧
    (classApply (M := Unit) (fun (w x : ℕ) => .ok (w * x, ())) (some ⟨true, fun e _ _ _ o => o / e⟩) ⟨true, ⟨6, 2⟩⟩ 2).toOption =
      none := by
  decide

/-! ### Concrete cases that meet the hypotheses of the theorems above -/

example := C107_class (M := Unit) (mapEditor fun (e o : ℕ) => o / e) rfl (fun (w x : ℕ) => .ok (w * x, ())) 6 2 2
example := C107_probit_false (M := Unit) ⟨true, fun (e : ℕ) _ _ _ (o : ℕ) => o / e⟩ rfl (fun (w x : ℕ) => .ok (w * x, ())) true 6 2 2
example := C107_sngp_probit_false (M := Unit) ⟨true, fun (e : ℕ) _ _ _ (o : ℕ) => o / e⟩ rfl (fun (w x : ℕ) => .ok (w * x, ())) true 6 2 2

end Verif.Props.Editor
