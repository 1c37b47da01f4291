import Verif.Elab.Types

/-!
# From types to hardware types: signatures are determined by the generic arguments
-/

namespace Spade.Elab

open Spade.Infer (Careful)
open Spade.Infer.Spec (Kind Base GT TExpr Val Value LeastInt LeastUint)
open Spade.Check

theorem leastInt_det {x : Int} {n m : Nat} (h : LeastInt x n) (h' : LeastInt x m) : n = m :=
  Nat.le_antisymm (h.2 _ h'.1) (h'.2 _ h.1)

theorem leastUint_det {x : Int} {n m : Nat} (h : LeastUint x n) (h' : LeastUint x m) : n = m :=
  Nat.le_antisymm (h.2 _ h'.1) (h'.2 _ h.1)

theorem value_det {ρ : String → Option Val} {e : TExpr} {v : Val} (h : Value ρ e v) :
    ∀ {w : Val}, Value ρ e w → v = w := by
  induction h with
  | name h => intro w h'; cases h' with | name h' => rw [h] at h'; exact Option.some.inj h'
  | bool => intro w h'; cases h'; rfl
  | int => intro w h'; cases h'; rfl
  | str => intro w h'; cases h'; rfl
  | eq h1 h2 hs ih1 ih2 => intro w h'; cases h' with | eq a b c => rw [ih1 a, ih2 b]
  | neq h1 h2 hs ih1 ih2 => intro w h'; cases h' with | neq a b c => rw [ih1 a, ih2 b]
  | paren h ih => intro w h'; cases h' with | paren a => exact ih a
  | intBits h hl ih =>
    intro w h'
    cases h' with
    | intBits a b => cases ih a; rw [leastInt_det hl b]
  | uintBits h hl ih =>
    intro w h'
    cases h' with
    | uintBits a b => cases ih a; rw [leastUint_det hl b]
  | neg h ih => intro w h'; cases h' with | neg a => cases ih a; rfl
  | not h ih => intro w h'; cases h' with | not a => cases ih a; rfl
  | add h1 h2 ih1 ih2 => intro w h'; cases h' with | add a b => cases ih1 a; cases ih2 b; rfl
  | sub h1 h2 ih1 ih2 => intro w h'; cases h' with | sub a b => cases ih1 a; cases ih2 b; rfl
  | mul h1 h2 ih1 ih2 => intro w h'; cases h' with | mul a b => cases ih1 a; cases ih2 b; rfl
  | div h1 h2 hz ih1 ih2 => intro w h'; cases h' with | div a b _ => cases ih1 a; cases ih2 b; rfl
  | mod h1 h2 hz ih1 ih2 => intro w h'; cases h' with | mod a b _ => cases ih1 a; cases ih2 b; rfl
  | lt h1 h2 ih1 ih2 => intro w h'; cases h' with | lt a b => cases ih1 a; cases ih2 b; rfl
  | gt h1 h2 ih1 ih2 => intro w h'; cases h' with | gt a b => cases ih1 a; cases ih2 b; rfl
  | le h1 h2 ih1 ih2 => intro w h'; cases h' with | le a b => cases ih1 a; cases ih2 b; rfl
  | ge h1 h2 ih1 ih2 => intro w h'; cases h' with | ge a b => cases ih1 a; cases ih2 b; rfl
  | and h1 h2 ih1 ih2 => intro w h'; cases h' with | and a b => cases ih1 a; cases ih2 b; rfl
  | or h1 h2 ih1 ih2 => intro w h'; cases h' with | or a b => cases ih1 a; cases ih2 b; rfl
  | xor h1 h2 ih1 ih2 => intro w h'; cases h' with | xor a b => cases ih1 a; cases ih2 b; rfl

theorem value_congr {ρ ρ' : String → Option Val} {e : TExpr} {v : Val} (h : Value ρ e v)
    (hn : ∀ n ∈ exprNames e, ρ n = ρ' n) : Value ρ' e v := by
  induction h with
  | name h => exact .name (by rw [← hn _ (by simp [exprNames])]; exact h)
  | bool => exact .bool
  | int => exact .int
  | str => exact .str
  | paren _ ih => exact .paren (ih hn)
  | neg _ ih => exact .neg (ih hn)
  | not _ ih => exact .not (ih hn)
  | intBits _ h ih => exact .intBits (ih hn) h
  | uintBits _ h ih => exact .uintBits (ih hn) h
  | _ =>
    rename_i ih1 ih2
    simp only [exprNames, List.mem_append] at hn
    have a := ih1 fun n h => hn n (.inl h)
    have b := ih2 fun n h => hn n (.inr h)
    first
      | exact .add a b | exact .sub a b | exact .mul a b | exact .div a b ‹_› | exact .mod a b ‹_›
      | exact .eq a b ‹_› | exact .neq a b ‹_› | exact .lt a b | exact .gt a b | exact .le a b
      | exact .ge a b | exact .and a b | exact .or a b | exact .xor a b

theorem careful_congr {ρ ρ' : String → Option Val} : ∀ {e : TExpr},
    (∀ n ∈ exprNames e, ρ n = ρ' n) → Careful ρ e → Careful ρ' e
  | .name _, _, _ | .bool _, _, _ | .int _, _, _ | .str _, _, _ => by simp [Careful]
  | .neg a, hn, h | .not a, hn, h | .paren a, hn, h => by
    simp only [Careful] at h ⊢
    exact careful_congr (e := a) hn h
  | .intBits a, hn, h => by
    simp only [Careful] at h ⊢
    exact ⟨careful_congr (e := a) hn h.1, fun hv => h.2 (value_congr hv fun n h => (hn n h).symm)⟩
  | .uintBits a, hn, h => by
    simp only [Careful] at h ⊢
    exact ⟨careful_congr (e := a) hn h.1,
      fun v hv hx => h.2 v hv (value_congr hx fun n h => (hn n h).symm)⟩
  | .add a b, hn, h | .sub a b, hn, h | .mul a b, hn, h | .div a b, hn, h | .mod a b, hn, h
  | .eq a b, hn, h | .neq a b, hn, h | .lt a b, hn, h | .gt a b, hn, h | .le a b, hn, h
  | .ge a b, hn, h | .and a b, hn, h | .or a b, hn, h | .xor a b, hn, h => by
    simp only [Careful, exprNames, List.mem_append] at h hn ⊢
    exact ⟨careful_congr (fun n h => hn n (.inl h)) h.1, careful_congr (fun n h => hn n (.inr h)) h.2⟩

theorem constIs_det {θ θ' : Generics} {e : TExpr} {t t' : GT} (hn : ∀ n ∈ exprNames e, θ n = θ' n)
    (hc : Careful θ'.vals e) (h : ConstIs θ e t) (h' : ConstIs θ' e t') : t = t' := by
  obtain ⟨w, rfl, _, h2⟩ := h
  obtain ⟨w', rfl, _, h2'⟩ := h'
  have hv : ∀ n ∈ exprNames e, θ.vals n = θ'.vals n := fun n hn' => by
    simp [Generics.vals, hn n hn']
  have a := value_congr (h2 (careful_congr (fun n h => (hv n h).symm) hc)) hv
  have b := h2' hc
  rw [value_det a b]

mutual
/-- A signature stands for one type. -/
theorem spec_det {θ θ' : Generics} {ps : List String} (hp : ∀ g ∈ ps, θ g = θ' g) :
    ∀ (s : TSpec) {u u' : GT}, TFixed θ' ps s → s.Is θ u → s.Is θ' u' → u = u'
  | .declared n es, u, u', hf, h, h' => by
    simp only [TFixed, TSpec.Is] at hf h h'
    obtain ⟨a, rfl, h⟩ := h
    obtain ⟨a', rfl, h'⟩ := h'
    rw [exps_det hp es hf h h']
  | .generic g, u, u', hf, h, h' => by
    simp only [TFixed, TSpec.Is] at hf h h'
    rw [hp g hf, h'] at h
    exact (Option.some.inj h).symm
  | .tuple ts, u, u', hf, h, h' => by
    simp only [TFixed, TSpec.Is] at hf h h'
    obtain ⟨a, rfl, h⟩ := h
    obtain ⟨a', rfl, h'⟩ := h'
    rw [specs_det hp ts hf h h']
  | .array t n, u, u', hf, h, h' => by
    simp only [TFixed, TSpec.Is] at hf h h'
    obtain ⟨a, b, rfl, h1, h2⟩ := h
    obtain ⟨a', b', rfl, h1', h2'⟩ := h'
    rw [spec_det hp t hf.1 h1 h1', exp_det hp n hf.2 h2 h2']
  | .inverted t, u, u', hf, h, h' => by
    simp only [TFixed, TSpec.Is] at hf h h'
    obtain ⟨a, rfl, h⟩ := h
    obtain ⟨a', rfl, h'⟩ := h'
    rw [spec_det hp t hf h h']
  | .copyView t, u, u', hf, h, h' => by
    simp only [TFixed, TSpec.Is] at hf h h'
    obtain ⟨a, rfl, h⟩ := h
    obtain ⟨a', rfl, h'⟩ := h'
    rw [spec_det hp t hf h h']
  | .wildcard, u, u', hf, h, h' => by simp [TFixed] at hf
theorem specs_det {θ θ' : Generics} {ps : List String} (hp : ∀ g ∈ ps, θ g = θ' g) :
    ∀ (s : List TSpec) {u u' : List GT}, TFixeds θ' ps s → TSpec.Are θ s u → TSpec.Are θ' s u' → u = u'
  | [], u, u', hf, h, h' => by
    simp only [TSpec.Are] at h h'
    rw [h, h']
  | t :: ts, u, u', hf, h, h' => by
    simp only [TFixeds, TSpec.Are] at hf h h'
    obtain ⟨a, b, rfl, h1, h2⟩ := h
    obtain ⟨a', b', rfl, h1', h2'⟩ := h'
    rw [spec_det hp t hf.1 h1 h1', specs_det hp ts hf.2 h2 h2']
theorem exp_det {θ θ' : Generics} {ps : List String} (hp : ∀ g ∈ ps, θ g = θ' g) :
    ∀ (s : TExp) {u u' : GT}, EFixed θ' ps s → s.Is θ u → s.Is θ' u' → u = u'
  | .bool _, u, u', hf, h, h' | .int _, u, u', hf, h, h' | .str _, u, u', hf, h, h' => by
    simp only [TExp.Is] at h h'
    rw [h, h']
  | .spec t, u, u', hf, h, h' => by
    simp only [EFixed, TExp.Is] at hf h h'
    exact spec_det hp t hf h h'
  | .const e, u, u', hf, h, h' => by
    simp only [EFixed, TExp.Is] at hf h h'
    exact constIs_det (fun n hn => hp n (hf.1 n hn)) hf.2 h h'
theorem exps_det {θ θ' : Generics} {ps : List String} (hp : ∀ g ∈ ps, θ g = θ' g) :
    ∀ (s : List TExp) {u u' : List GT}, EFixeds θ' ps s → TExp.Are θ s u → TExp.Are θ' s u' → u = u'
  | [], u, u', hf, h, h' => by
    simp only [TExp.Are] at h h'
    rw [h, h']
  | t :: ts, u, u', hf, h, h' => by
    simp only [EFixeds, TExp.Are] at hf h h'
    obtain ⟨a, b, rfl, h1, h2⟩ := h
    obtain ⟨a', b', rfl, h1', h2'⟩ := h'
    rw [exp_det hp t hf.1 h1 h1', exps_det hp ts hf.2 h2 h2']
end

theorem out_det {θ θ' : Generics} {ps : List String} (hp : ∀ g ∈ ps, θ g = θ' g) {s : Option TSpec}
    {u u' : GT} (hf : OutFixed θ' ps s) (h : OutIs θ s u) (h' : OutIs θ' s u') : u = u' := by
  cases s with
  | none => simp only [OutIs] at h h'; rw [h, h']
  | some s => exact spec_det hp s hf h h'

theorem callArgs_agree {θ θ' : Generics} : ∀ {ps : List (String × Kind)} {as : List GT},
    callArgs ps θ = some as → callArgs ps θ' = some as → ∀ g ∈ ps.map (·.1), θ g = θ' g
  | [], _, _, _, g, hg => by simp at hg
  | p :: ps, as, h, h', g, hg => by
    simp only [callArgs, Option.bind_eq_bind, Option.bind_eq_some_iff, Option.pure_def,
      Option.some.injEq] at h h'
    obtain ⟨a, h1, b, h2, rfl⟩ := h
    obtain ⟨a', h1', b', h2', he⟩ := h'
    cases he
    simp only [List.map_cons, List.mem_cons] at hg
    rcases hg with rfl | hg
    · rw [h1, h1']
    · exact callArgs_agree h2 h2' g hg

theorem are_of_mem {θ : Generics} {N : Nat → Option GT} : ∀ {is : List (Nat × TSpec)},
    (∀ i ∈ is, ∃ t, N i.1 = some t ∧ i.2.Is θ t) →
    ∃ us, TSpec.Are θ (is.map (·.2)) us ∧ us.map some = is.map fun i => N i.1
  | [], _ => ⟨[], by simp [TSpec.Are], rfl⟩
  | i :: is, h => by
    obtain ⟨t, h1, h2⟩ := h i (by simp)
    obtain ⟨us, h3, h4⟩ := are_of_mem fun j hj => h j (List.mem_cons_of_mem _ hj)
    exact ⟨t :: us, by simp only [List.map_cons, TSpec.Are]; exact ⟨t, us, rfl, h2, h3⟩,
      by simp [h1, h4]⟩

end Spade.Elab
