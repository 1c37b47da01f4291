import Verif.Units.Model
import Verif.Mono.Props
import Verif.Mir.VerilogNames
/-!
# Texts of names, and names in runs
-/
namespace Spade.Units

open Spade.Mono Spade.Mono.Spec
open Spade.Mir (digits digits_inj isDigit_digits)

variable {P : Type} [DecidableEq P]

theorem split_at {c : Char} : ∀ {a b r s : Str}, c ∉ a → c ∉ b → (r = [] ∨ ∃ r', r = c :: r') →
    (s = [] ∨ ∃ s', s = c :: s') → a ++ r = b ++ s → a = b ∧ r = s
  | [], [], r, s, _, _, _, _, h => ⟨rfl, h⟩
  | [], b :: bs, r, s, _, hb, hr, _, h => by
    rcases hr with rfl | ⟨r', rfl⟩
    · cases h
    · injection h with h1 _
      exact absurd (h1 ▸ List.mem_cons_self) hb
  | a :: as, [], r, s, ha, _, _, hs, h => by
    rcases hs with rfl | ⟨s', rfl⟩
    · cases h
    · injection h with h1 _
      exact absurd (h1 ▸ List.mem_cons_self) ha
  | a :: as, b :: bs, r, s, ha, hb, hr, hs, h => by
    injection h with h1 h2
    have := split_at (fun h => ha (List.mem_cons_of_mem _ h)) (fun h => hb (List.mem_cons_of_mem _ h)) hr hs h2
    exact ⟨by rw [h1, this.1], this.2⟩

theorem not_digit {c : Char} (hc : c.isDigit = false) (n : Nat) : c ∉ digits n := fun h => by
  have := isDigit_digits h
  rw [hc] at this
  cases this

/-- Every named segment is an identifier. -/
def CleanPath (p : List Seg) : Prop := ∀ s, Seg.named s ∈ p → Clean s

theorem CleanPath.tail {s : Seg} {p} (h : CleanPath (s :: p)) : CleanPath p :=
  fun t ht => h t (List.mem_cons_of_mem _ ht)

theorem seg_colon {s : Seg} (h : ∀ t, s = .named t → Clean t) : ':' ∉ s.text ∧ '[' ∉ s.text := by
  cases s with
  | named t => exact ⟨(h t rfl).2.1, (h t rfl).2.2.1⟩
  | impl n =>
    have h1 := not_digit (c := ':') (by decide) n
    have h2 := not_digit (c := '[') (by decide) n
    rw [Seg.text]
    generalize digits n = l at h1 h2
    simp [h1, h2]
  | ifT => simp [Seg.text]
  | ifF => simp [Seg.text]

theorem seg_inj {s t : Seg} (hs : ∀ x, s = .named x → Clean x) (ht : ∀ x, t = .named x → Clean x)
    (h : s.text = t.text) : s = t := by
  have hd : ∀ n, Seg.text (.impl n) = 'i' :: 'm' :: 'p' :: 'l' :: '#' :: digits n := fun n => by rw [Seg.text]
  have hT : Seg.text .ifT = ['i', 'f', '#', 't', 'r', 'u', 'e'] := by simp [Seg.text]
  have hF : Seg.text .ifF = ['i', 'f', '#', 'f', 'a', 'l', 's', 'e'] := by simp [Seg.text]
  have hn : ∀ x (u : Seg), Clean x → x = u.text → (∃ y, u = .named y) := by
    intro x u hx he
    have h4 := hx.2.2.2
    cases u with
    | named y => exact ⟨y, rfl⟩
    | impl n => rw [he, hd] at h4; simp at h4
    | ifT => rw [he, hT] at h4; simp at h4
    | ifF => rw [he, hF] at h4; simp at h4
  cases s with
  | named x =>
    obtain ⟨y, rfl⟩ := hn x t (hs x rfl) h
    simp only [Seg.text] at h
    rw [h]
  | impl n =>
    cases t with
    | named y => obtain ⟨z, hz⟩ := hn y (.impl n) (ht y rfl) h.symm; cases hz
    | impl m =>
      rw [hd, hd] at h
      simp only [List.cons.injEq, true_and] at h
      rw [digits_inj h]
    | ifT => rw [hd, hT] at h; simp at h
    | ifF => rw [hd, hF] at h; simp at h
  | ifT =>
    cases t with
    | named y => obtain ⟨z, hz⟩ := hn y .ifT (ht y rfl) h.symm; cases hz
    | impl m => rw [hd, hT] at h; simp at h
    | ifT => rfl
    | ifF => rw [hT, hF] at h; simp at h
  | ifF =>
    cases t with
    | named y => obtain ⟨z, hz⟩ := hn y .ifF (ht y rfl) h.symm; cases hz
    | impl m => rw [hd, hF] at h; simp at h
    | ifT => rw [hT, hF] at h; simp at h
    | ifF => rfl

theorem joinRest_head (p : List Seg) : joinRest p = [] ∨ ∃ r, joinRest p = ':' :: r := by
  cases p with
  | nil => exact .inl rfl
  | cons s p => exact .inr ⟨_, rfl⟩

theorem joinRest_inj : ∀ {p q : List Seg}, CleanPath p → CleanPath q → joinRest p = joinRest q → p = q
  | [], [], _, _, _ => rfl
  | [], _ :: _, _, _, h => by simp [joinRest] at h
  | _ :: _, [], _, _, h => by simp [joinRest] at h
  | s :: p, t :: q, hp, hq, h => by
    simp only [joinRest, List.cons.injEq, true_and] at h
    have hs : ∀ x, s = .named x → Clean x := fun x hx => hp x (by rw [hx]; simp)
    have ht : ∀ x, t = .named x → Clean x := fun x hx => hq x (by rw [hx]; simp)
    have h' := split_at (seg_colon hs).1 (seg_colon ht).1 (joinRest_head p) (joinRest_head q) h
    rw [seg_inj hs ht h'.1, joinRest_inj hp.tail hq.tail h'.2]

theorem join_inj {p q : List Seg} (hp : CleanPath p) (hq : CleanPath q) (hp0 : p ≠ []) (hq0 : q ≠ [])
    (h : join p = join q) : p = q := by
  cases p with
  | nil => exact absurd rfl hp0
  | cons s p =>
    cases q with
    | nil => exact absurd rfl hq0
    | cons t q => exact joinRest_inj hp hq (by simp only [join] at h; simp only [joinRest, h])

theorem joinRest_bracket : ∀ {p : List Seg}, CleanPath p → '[' ∉ joinRest p
  | [], _ => by simp [joinRest]
  | s :: p, h => by
    have hs : ∀ x, s = .named x → Clean x := fun x hx => h x (by rw [hx]; simp)
    have := (seg_colon hs).2
    have := joinRest_bracket h.tail
    simp [joinRest, *]

theorem join_bracket {p : List Seg} (h : CleanPath p) : '[' ∉ join p := by
  have := joinRest_bracket h
  cases p with
  | nil => simp [join]
  | cons s p => simp only [joinRest, List.mem_cons, not_or] at this; exact this.2.2

theorem withID_inj {p q : List Seg} {m n : Nat} (hp : CleanPath p) (hq : CleanPath q)
    (h : (UnitName.withID m p).text = (UnitName.withID n q).text) : m = n := by
  simp only [UnitName.text] at h
  have h' := split_at (join_bracket hp) (join_bracket hq) (.inr ⟨_, rfl⟩) (.inr ⟨_, rfl⟩) h
  simp only [List.cons.injEq, true_and, List.append_cancel_right_eq] at h'
  exact digits_inj h'.2

theorem withID_bracket (p : List Seg) (m : Nat) : '[' ∈ (UnitName.withID m p).text := by
  simp [UnitName.text]

theorem find_self {ds : List Decl} (h : (ds.map Decl.id).Nodup) {d : Decl} (hd : d ∈ ds) :
    find ds d.id = some d := by
  induction ds with
  | nil => cases hd
  | cons e ds ih =>
    rw [List.map_cons, List.nodup_cons] at h
    rcases List.mem_cons.1 hd with rfl | hd'
    · simp [find]
    · have hne : ¬ e.id = d.id := fun he => h.1 (List.mem_map.2 ⟨d, hd', he.symm⟩)
      rw [find, List.find?_cons_of_neg (by simpa using hne)]
      exact ih h.2 hd'

theorem find_mem {ds : List Decl} {n : Nat} {d : Decl} (h : find ds n = some d) : d ∈ ds ∧ d.id = n :=
  ⟨List.mem_of_find?_eq_some h, by simpa using List.find?_some h⟩

/-- Units that are requested at first keep their numbers. -/
theorem root_names {pg : Prog P} (hid : ∀ r ∈ pg.roots, r < pg.firstId)
    (hu : ∀ k, ∀ k' ∈ pg.uses k, k'.source ∉ pg.roots) {s : State P} (hr : Reachable pg s) :
    ∀ e ∈ s.translation, e.1.source ∈ pg.roots → e.2 = e.1.source := by
  have hreq : ∀ (s : State P) k b, (∀ e ∈ s.translation, e.1.source ∈ pg.roots → e.2 = e.1.source) →
      (b = true ∨ k.source ∉ pg.roots) →
      ∀ e ∈ (request s k b).2.translation, e.1.source ∈ pg.roots → e.2 = e.1.source := by
    intro s k b ih hb e he hs
    simp only [request] at he
    cases hl : lookup s.translation k with
    | some prev => rw [hl] at he; exact ih e he hs
    | none =>
      rw [hl] at he
      rcases List.mem_cons.1 he with rfl | he
      · rcases hb with rfl | hb
        · rfl
        · exact absurd hs hb
      · exact ih e he hs
  induction hr with
  | start => intro e he; simp [start] at he
  | @step s s' hr hs ih =>
    have hinv := inv_reachable hid hr
    cases hs with
    | initRequest h1 h2 => exact hreq _ _ _ ih (.inl rfl)
    | @jobRequest pre post i k todo h1 h2 =>
      refine hreq _ _ _ ih (.inr ?_)
      have hj := hinv.jobsOk ⟨i, .running (k :: todo)⟩ (by rw [h1]; simp)
      obtain ⟨done, h3, _⟩ := hj
      exact hu i.key k (by rw [h3]; simp)
    | _ => exact ih

theorem results_entries {pg : Prog P} (hid : ∀ r ∈ pg.roots, r < pg.firstId) {s : State P}
    (hr : Reachable pg s) (hf : Final s) : List.Perm (s.results.map Item.entry) s.translation := by
  have h := inv_reachable hid hr
  have hit := h.items
  simp only [allItems] at hit
  rw [(h.doneOk hf.1).1, hf.1, hf.2] at hit
  simpa [MainPc.held] using hit

end Spade.Units
