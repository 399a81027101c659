import Verif.Model.Points
import Verif.Spec

/-! # The byte-string order -/

namespace Schnorrkel

theorem cmpBytes_eq : ∀ a b : Bytes, cmpBytes a b = .eq ↔ a = b
  | [], [] => by simp [cmpBytes]
  | [], _ :: _ => by simp [cmpBytes]
  | _ :: _, [] => by simp [cmpBytes]
  | a :: as, b :: bs => by
    unfold cmpBytes
    split
    · rename_i h; simp; intro h2; subst h2; exact absurd h (UInt8.lt_irrefl a)
    · split
      · rename_i h; simp; intro h2; subst h2; exact absurd h (UInt8.lt_irrefl a)
      · rename_i h1 h2
        rw [cmpBytes_eq as bs]
        have : a = b := UInt8.le_antisymm (UInt8.not_lt.mp h2) (UInt8.not_lt.mp h1)
        simp [this]

theorem cmpBytes_lt : ∀ a b : Bytes, cmpBytes a b = .lt ↔ Spec.lexLt a b
  | [], [] => by simp [cmpBytes, Spec.lexLt]
  | [], _ :: _ => by simp [cmpBytes, Spec.lexLt]
  | _ :: _, [] => by simp [cmpBytes, Spec.lexLt]
  | a :: as, b :: bs => by
    have ih := cmpBytes_lt as bs
    have hlex : Spec.lexLt (a :: as) (b :: bs) ↔ a < b ∨ (a = b ∧ Spec.lexLt as bs) := by
      constructor
      · intro h
        cases h with
        | rel h => exact .inl h
        | cons h => exact .inr ⟨rfl, h⟩
      · rintro (h | ⟨rfl, h⟩)
        · exact .rel h
        · exact .cons h
    rw [hlex, ← ih, cmpBytes]
    split
    · rename_i h; simp [h]
    · split
      · rename_i h1 h2; simp [h1]; rintro rfl; exact absurd h2 (UInt8.lt_irrefl a)
      · rename_i h1 h2
        have : a = b := UInt8.le_antisymm (UInt8.not_lt.mp h2) (UInt8.not_lt.mp h1)
        simp [this]

theorem cmpBytes_swap : ∀ a b : Bytes, (cmpBytes a b).swap = cmpBytes b a
  | [], [] => by simp [cmpBytes]
  | [], _ :: _ => by simp [cmpBytes]
  | _ :: _, [] => by simp [cmpBytes]
  | a :: as, b :: bs => by
    unfold cmpBytes
    by_cases h1 : a < b
    · have h2 : ¬ b < a := fun h => UInt8.lt_irrefl a (UInt8.lt_trans h1 h)
      simp [h1, h2]
    · by_cases h2 : b < a
      · simp [h1, h2]
      · simp [h1, h2, cmpBytes_swap as bs]

theorem cmpBytes_trans {a b c : Bytes} (h1 : cmpBytes a b = .lt) (h2 : cmpBytes b c = .lt) :
    cmpBytes a c = .lt := by
  rw [cmpBytes_lt] at *
  exact List.lex_trans (fun h1 h2 => UInt8.lt_trans h1 h2) h1 h2

theorem cmpBytes_self (a : Bytes) : cmpBytes a a = .eq := (cmpBytes_eq a a).mpr rfl

theorem cmpBytes_gt {a b : Bytes} : cmpBytes a b = .gt ↔ cmpBytes b a = .lt := by
  rw [← cmpBytes_swap b a]; cases cmpBytes b a <;> simp

end Schnorrkel
