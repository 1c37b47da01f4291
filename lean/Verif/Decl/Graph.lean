import Verif.Decl.Model

/-! # Facts about declarations and circles (C63) -/

namespace Spade.Decl

open Spade.Check (TSpec TExp)

/-! ## The names in a type are those it mentions -/

mutual
theorem names_mentions {n : Nat} : ∀ (t : TSpec), n ∈ names t → TSpec.Mentions n t
  | .declared m ps, h => by
    simp only [names, List.mem_cons] at h
    rcases h with rfl | h
    · exact .here
    · obtain ⟨t, ht, hm⟩ := argNames_mentions ps h
      exact .arg ht hm
  | .generic _, h => by simp [names] at h
  | .tuple ts, h => by
    simp only [names] at h
    obtain ⟨t, ht, hm⟩ := namesAll_mentions ts h
    exact .tuple ht hm
  | .array t k, h => by
    simp only [names, List.mem_append] at h
    rcases h with h | h
    · exact .elem (names_mentions t h)
    · obtain ⟨s, rfl, hm⟩ := expNames_mentions k h
      exact .size hm
  | .inverted t, h => by
    simp only [names] at h
    exact .inverted (names_mentions t h)
  | .copyView t, h => by
    simp only [names] at h
    exact .copyView (names_mentions t h)
  | .wildcard, h => by simp [names] at h
theorem namesAll_mentions {n : Nat} : ∀ (ts : List TSpec), n ∈ namesAll ts →
    ∃ t ∈ ts, TSpec.Mentions n t
  | [], h => by simp [namesAll] at h
  | t :: ts, h => by
    simp only [namesAll, List.mem_append] at h
    rcases h with h | h
    · exact ⟨t, List.mem_cons_self, names_mentions t h⟩
    · obtain ⟨u, hu, hm⟩ := namesAll_mentions ts h
      exact ⟨u, List.mem_cons_of_mem _ hu, hm⟩
theorem expNames_mentions {n : Nat} : ∀ (e : TExp), n ∈ expNames e →
    ∃ t, e = .spec t ∧ TSpec.Mentions n t
  | .spec t, h => by
    simp only [expNames] at h
    exact ⟨t, rfl, names_mentions t h⟩
  | .bool _, h => by simp [expNames] at h
  | .int _, h => by simp [expNames] at h
  | .str _, h => by simp [expNames] at h
  | .const _, h => by simp [expNames] at h
theorem argNames_mentions {n : Nat} : ∀ (es : List TExp), n ∈ argNames es →
    ∃ t, TExp.spec t ∈ es ∧ TSpec.Mentions n t
  | [], h => by simp [argNames] at h
  | e :: es, h => by
    simp only [argNames, List.mem_append] at h
    rcases h with h | h
    · obtain ⟨t, rfl, hm⟩ := expNames_mentions e h
      exact ⟨t, List.mem_cons_self, hm⟩
    · obtain ⟨t, ht, hm⟩ := argNames_mentions es h
      exact ⟨t, List.mem_cons_of_mem _ ht, hm⟩
end

theorem mem_argNames {n : Nat} {t : TSpec} : ∀ {es : List TExp}, TExp.spec t ∈ es → n ∈ names t →
    n ∈ argNames es
  | e :: es, h, hn => by
    simp only [argNames, List.mem_append]
    rcases List.mem_cons.mp h with rfl | h
    · exact .inl (by simpa only [expNames] using hn)
    · exact .inr (mem_argNames h hn)

theorem mem_namesAll {n : Nat} {t : TSpec} : ∀ {ts : List TSpec}, t ∈ ts → n ∈ names t →
    n ∈ namesAll ts
  | u :: ts, h, hn => by
    simp only [namesAll, List.mem_append]
    rcases List.mem_cons.mp h with rfl | h
    · exact .inl hn
    · exact .inr (mem_namesAll h hn)

theorem mentions_names {n : Nat} {t : TSpec} (h : TSpec.Mentions n t) : n ∈ names t := by
  induction h with
  | here => simp [names]
  | arg ht _ ih => simp only [names, List.mem_cons]; exact .inr (mem_argNames ht ih)
  | tuple ht _ ih => simp only [names]; exact mem_namesAll ht ih
  | elem _ ih => simp only [names, List.mem_append]; exact .inl ih
  | size _ ih => simp only [names, List.mem_append, expNames]; exact .inr ih
  | inverted _ ih => simpa only [names] using ih
  | copyView _ ih => simpa only [names] using ih

theorem decl_names {n : Nat} {d : TypeDecl} : n ∈ d.names ↔ d.Mentions n := by
  constructor
  · intro h
    obtain ⟨name, kind, params⟩ := d
    cases kind with
    | prim p => simp [TypeDecl.names] at h
    | enum os =>
      simp only [TypeDecl.names, List.mem_flatMap] at h
      obtain ⟨o, ho, m, hm, h⟩ := h
      exact .enum ho hm (names_mentions _ h)
    | struct ms =>
      simp only [TypeDecl.names, List.mem_flatMap] at h
      obtain ⟨m, hm, h⟩ := h
      exact .struct hm (names_mentions _ h)
    | alias t => exact .alias (names_mentions _ h)
  · intro h
    cases h with
    | enum ho hm h =>
      simp only [TypeDecl.names, List.mem_flatMap]
      exact ⟨_, ho, _, hm, mentions_names h⟩
    | struct hm h =>
      simp only [TypeDecl.names, List.mem_flatMap]
      exact ⟨_, hm, mentions_names h⟩
    | alias h => exact mentions_names h

/-! ## Circles -/

theorem Uses.mono {T T' : List TypeDecl} (h : ∀ d ∈ T, d ∈ T') {a b : Nat} (hu : Uses T a b) :
    Uses T' a b := by
  obtain ⟨d, hd, hu⟩ := hu
  exact ⟨d, h d hd, hu⟩

theorem Reaches.mono {T T' : List TypeDecl} (h : ∀ d ∈ T, d ∈ T') {a b : Nat} (hr : Reaches T a b) :
    Reaches T' a b := by
  induction hr with
  | one hu => exact .one (hu.mono h)
  | more hu _ ih => exact .more (hu.mono h) ih

theorem NoCircle.mono {T T' : List TypeDecl} (h : ∀ d ∈ T, d ∈ T') (hn : NoCircle T') : NoCircle T :=
  fun a hr => hn a (hr.mono h)

theorem Reaches.trans {T : List TypeDecl} {a b c : Nat} (h : Reaches T a b) (h' : Reaches T b c) :
    Reaches T a c := by
  induction h with
  | one hu => exact .more hu h'
  | more hu _ ih => exact .more hu (ih h')

theorem uses_cons {T : List TypeDecl} {d : TypeDecl} {a b : Nat} (h : Uses (d :: T) a b) :
    (a = d.name ∧ d.Mentions b) ∨ Uses T a b := by
  obtain ⟨e, he, hn, hm⟩ := h
  rcases List.mem_cons.mp he with rfl | he
  · exact .inl ⟨hn.symm, hm⟩
  · exact .inr ⟨e, he, hn, hm⟩

theorem uses_self {T : List TypeDecl} {d : TypeDecl} {b : Nat} (h : d.Mentions b) :
    Uses (d :: T) d.name b := ⟨d, List.mem_cons_self, rfl, h⟩

theorem uses_tail {T : List TypeDecl} {d : TypeDecl} {a b : Nat} (h : Uses T a b) :
    Uses (d :: T) a b := h.mono (fun _ => List.mem_cons_of_mem _)

theorem reaches_cons {T : List TypeDecl} {d : TypeDecl} {a b : Nat} (h : Reaches (d :: T) a b) :
    Reaches T a b ∨ ((a = d.name ∨ Reaches (d :: T) a d.name) ∧ Reaches (d :: T) d.name b) := by
  induction h with
  | one hu =>
    rcases uses_cons hu with ⟨rfl, hm⟩ | hu'
    · exact .inr ⟨.inl rfl, .one hu⟩
    · exact .inl (.one hu')
  | more hu hr ih =>
    rcases uses_cons hu with ⟨rfl, hm⟩ | hu'
    · exact .inr ⟨.inl rfl, .more hu hr⟩
    · rcases ih with ih | ⟨ih1, ih2⟩
      · exact .inl (.more hu' ih)
      · refine .inr ⟨.inr ?_, ih2⟩
        rcases ih1 with rfl | ih1
        · exact .one hu
        · exact .more hu ih1

/-- Adding a declaration that does not contain itself makes no circle. -/
theorem noCircle_cons {T : List TypeDecl} {d : TypeDecl} (hT : NoCircle T)
    (hd : ¬ Reaches (d :: T) d.name d.name) : NoCircle (d :: T) := by
  intro a ha
  rcases reaches_cons ha with h | ⟨h1, h2⟩
  · exact hT a h
  · rcases h1 with rfl | h1
    · exact hd ha
    · exact hd (h2.trans h1)

theorem noCircle_nil : NoCircle [] := by
  intro a h
  cases h with
  | one hu => obtain ⟨d, hd, _⟩ := hu; simp at hd
  | more hu _ => obtain ⟨d, hd, _⟩ := hu; simp at hd

theorem noCircle_prim {T : List TypeDecl} (h : ∀ d ∈ T, ∃ p, d.kind = .prim p) : NoCircle T := by
  have hu : ∀ a b, ¬ Uses T a b := by
    rintro a b ⟨d, hd, hn, hm⟩
    obtain ⟨p, hp⟩ := h d hd
    cases hm <;> cases hp
  intro a hr
  cases hr with
  | one h => exact hu _ _ h
  | more h _ => exact hu _ _ h

/-! ## Ranks -/

/-- The largest value of a function on a list. -/
theorem exists_bound (f : Nat → Nat) : ∀ l : List Nat, ∃ k, ∀ n ∈ l, f n < k
  | [] => ⟨0, by simp⟩
  | n :: l => by
    obtain ⟨k, hk⟩ := exists_bound f l
    refine ⟨f n + k + 1, fun m hm => ?_⟩
    rcases List.mem_cons.mp hm with rfl | hm
    · omega
    · have := hk m hm
      omega

/-- Without circles, every name has a rank that falls along mentions. -/
theorem exists_rank : ∀ {T : List TypeDecl}, NoCircle T →
    ∃ r : Nat → Nat, ∀ a b, Uses T a b → r b < r a
  | [], _ => ⟨fun _ => 0, by rintro a b ⟨d, hd, _⟩; simp at hd⟩
  | d :: T, h => by
    obtain ⟨r, hr⟩ := exists_rank (h.mono (fun _ => List.mem_cons_of_mem _) : NoCircle T)
    obtain ⟨k, hk⟩ := exists_bound r d.names
    classical
    refine ⟨fun n => if n = d.name ∨ Reaches T n d.name then r n + k else r n, fun a b hu => ?_⟩
    rcases uses_cons hu with ⟨rfl, hm⟩ | hu'
    · have hb : ¬ (b = d.name ∨ Reaches T b d.name) := by
        rintro (rfl | hb)
        · exact h _ (.one hu)
        · exact h _ (.more hu (hb.mono (fun _ => List.mem_cons_of_mem _)))
      have := hk b (decl_names.mpr hm)
      simp only [if_neg hb, true_or, if_true]
      omega
    · have hlt := hr a b hu'
      by_cases hb : b = d.name ∨ Reaches T b d.name
      · have ha : a = d.name ∨ Reaches T a d.name := by
          rcases hb with rfl | hb
          · exact .inr (.one hu')
          · exact .inr (.more hu' hb)
        simp only [if_pos hb, if_pos ha]
        omega
      · simp only [if_neg hb]
        split <;> omega

/-! ## Looking up declarations -/

/-- No two declarations have the same name. -/
def Distinct (T : List TypeDecl) : Prop := (T.map (·.name)).Nodup

theorem find_mem {T : List TypeDecl} {n : Nat} {d : TypeDecl} (h : find T n = some d) :
    d ∈ T ∧ d.name = n :=
  ⟨List.mem_of_find?_eq_some h, by simpa using List.find?_some h⟩

theorem find_of_mem : ∀ {T : List TypeDecl} {d : TypeDecl}, Distinct T → d ∈ T →
    find T d.name = some d
  | e :: T, d, hT, hd => by
    simp only [Distinct, List.map_cons, List.nodup_cons, List.mem_map, not_exists, not_and] at hT
    rcases List.mem_cons.mp hd with rfl | hd
    · simp [find]
    · have hne : e.name ≠ d.name := fun h => hT.1 d hd h.symm
      have := find_of_mem hT.2 hd
      simp only [find, List.find?_cons, beq_eq_false_iff_ne.mpr hne] at this ⊢
      exact this

theorem uses_find {T : List TypeDecl} (hT : Distinct T) {a b : Nat} :
    Uses T a b ↔ ∃ d, find T a = some d ∧ b ∈ d.names := by
  constructor
  · rintro ⟨d, hd, rfl, hm⟩
    exact ⟨d, find_of_mem hT hd, decl_names.mpr hm⟩
  · rintro ⟨d, hf, hm⟩
    obtain ⟨hd, rfl⟩ := find_mem hf
    exact ⟨d, hd, rfl, decl_names.mp hm⟩

end Spade.Decl
