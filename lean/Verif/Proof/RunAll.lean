import Verif.Model.Encoder
import Verif.Model.Writer

/-! Running encoder calls one after the other. -/

namespace Measured

theorem RS.bind_unit {σ : Type} (x : RS σ Unit) : (x >>= fun _ => (pure () : RS σ Unit)) = x := by
  funext s
  rw [RS.bind_run]
  split <;> rename_i h <;> simp [h]

theorem RS.bind_assoc' {σ α β γ : Type} (x : RS σ α) (f : α → RS σ β) (g : β → RS σ γ) :
    ((x >>= f) >>= g) = (x >>= fun a => f a >>= g) := by
  funext s
  rw [RS.bind_run, RS.bind_run, RS.bind_run]
  cases h : x s with
  | mk o s' => cases o <;> rfl

theorem RS.pure_bind' {σ α β : Type} (a : α) (f : α → RS σ β) : ((pure a : RS σ α) >>= f) = f a := rfl

theorem Encoder.runAll_add {E : Type} (enc : Encoder E) (a b : List EncCall) :
    enc.runAll (a ++ b) = (enc.runAll a >>= fun _ => enc.runAll b) := by
  induction a with
  | nil => rfl
  | cons c cs ih =>
    simp only [List.cons_append, Encoder.runAll]
    rw [ih, RS.bind_assoc']

theorem Encoder.runAll_one {E : Type} (enc : Encoder E) (c : EncCall) : enc.runAll [c] = enc.run c := by
  simp only [Encoder.runAll]
  exact RS.bind_unit _

end Measured
