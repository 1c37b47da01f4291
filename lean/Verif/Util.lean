/-! Lists related element by element. -/
namespace Spade

/-- Two lists have the same length and are related element by element. -/
inductive Each {α β : Type} (R : α → β → Prop) : List α → List β → Prop
  | nil : Each R [] []
  | cons {a b as bs} : R a b → Each R as bs → Each R (a :: as) (b :: bs)

namespace Each
variable {α β γ : Type} {R S : α → β → Prop} {as : List α} {bs : List β}

theorem imp (hi : ∀ a b, R a b → S a b) (h : Each R as bs) : Each S as bs := by
  induction h with
  | nil => exact .nil
  | cons hr _ ih => exact .cons (hi _ _ hr) ih

theorem comp {T : β → γ → Prop} {cs : List γ} (h : Each R as bs) : Each T bs cs →
    Each (fun a c => ∃ b, R a b ∧ T b c) as cs := by
  intro h'
  induction h generalizing cs with
  | nil => cases h'; exact .nil
  | cons hr _ ih => cases h' with
    | cons hs h' => exact .cons ⟨_, hr, hs⟩ (ih h')

theorem append {as' : List α} {bs' : List β} (h : Each R as bs) (h' : Each R as' bs') :
    Each R (as ++ as') (bs ++ bs') := by
  induction h with
  | nil => exact h'
  | cons hr _ ih => exact .cons hr ih

theorem reverse (h : Each R as bs) : Each R as.reverse bs.reverse := by
  induction h with
  | nil => exact .nil
  | cons hr _ ih => rw [List.reverse_cons, List.reverse_cons]; exact ih.append (.cons hr .nil)

theorem length (h : Each R as bs) : as.length = bs.length := by
  induction h with
  | nil => rfl
  | cons _ _ ih => simp [ih]

end Each
end Spade
