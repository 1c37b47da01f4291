import Verif.Cxx.Model
/-!
# The classes of a wrapper
-/
namespace Spade.Cxx

open Spade.Vcd (Str Ty)

theorem Plain.field {ns ts f v} (h : Plain (.struct ns ts)) (hm : (f, v) ∈ ns.zip ts) : Plain v :=
  fun path ns' ts' ha => h (f :: path) ns' ts' (.field hm ha)

/-- The class of a field. -/
def own (path : List Str) (cls : Str) : Ty → Cls
  | .struct ns ts => ⟨cls, path, (ns.zip ts).map fun m => (m.1, fieldClass cls m.1)⟩
  | _ => ⟨cls, path, []⟩

theorem own_name (path : List Str) (cls : Str) (t : Ty) : (own path cls t).name = cls := by
  cases t <;> rfl

theorem own_path (path : List Str) (cls : Str) (t : Ty) : (own path cls t).path = path := by
  cases t <;> rfl

/-- Name of the class of the field at a path. -/
def classAt (cls : Str) : List Str → Str
  | [] => cls
  | f :: p => classAt (fieldClass cls f) p

theorem fieldWrappers_eq (path : List Str) (cls : Str) : ∀ (ns : List Str) (ts : List Ty),
    fieldWrappers path cls ns ts
      = (ns.zip ts).flatMap fun m => outputWrappers (path ++ [m.1]) (fieldClass cls m.1) m.2
  | ns, [] => by simp [fieldWrappers]
  | [], t :: ts => by simp [fieldWrappers]
  | n :: ns, t :: ts => by simp [fieldWrappers, fieldWrappers_eq path cls ns ts]

theorem own_mem (path : List Str) (cls : Str) (t : Ty) (h : t.size ≠ 0) :
    own path cls t ∈ outputWrappers path cls t := by
  cases t <;> simp [outputWrappers, own, h]

theorem field_subset {path : List Str} {cls : Str} {ns ts f v}
    (h : (Ty.struct ns ts).size ≠ 0) (hm : (f, v) ∈ ns.zip ts) :
    ∀ c ∈ outputWrappers (path ++ [f]) (fieldClass cls f) v, c ∈ outputWrappers path cls (.struct ns ts) := by
  intro c hc
  simp only [outputWrappers, if_neg h, fieldWrappers_eq, List.mem_append, List.mem_flatMap]
  exact Or.inl ⟨(f, v), hm, hc⟩

/-- Each class is the one of a field. -/
theorem mem_outputWrappers {cs t path cls} (hcs : outputWrappers path cls t = cs) :
    ∀ c ∈ cs, ∃ p u, At t p u ∧ c = own (path ++ p) (classAt cls p) u := by
  intro c hc
  subst hcs
  suffices H : ∀ n, ∀ t, sizeOf t < n → ∀ path cls, ∀ c ∈ outputWrappers path cls t,
      ∃ p u, At t p u ∧ c = own (path ++ p) (classAt cls p) u from
    H _ t (Nat.lt_succ_self _) path cls c hc
  intro n
  induction n with
  | zero => intro t h; omega
  | succ n ih =>
    intro t ht path cls c hc
    by_cases hs : ∃ ns ts, t = .struct ns ts
    · obtain ⟨ns, ts, rfl⟩ := hs
      simp only [outputWrappers] at hc
      split at hc
      · cases hc
      rw [fieldWrappers_eq, List.mem_append, List.mem_flatMap, List.mem_singleton] at hc
      rcases hc with ⟨⟨f, v⟩, hm, hc⟩ | rfl
      · have hv := (List.of_mem_zip hm).2
        have hlt := List.sizeOf_lt_of_mem hv
        have hst : sizeOf (Ty.struct ns ts) = 1 + sizeOf ns + sizeOf ts := by simp
        obtain ⟨p, u, h1, h2⟩ := ih v (by omega) _ _ c hc
        exact ⟨f :: p, u, .field hm h1, by simpa [classAt] using h2⟩
      · exact ⟨[], _, .here, by simp [own, classAt]⟩
    · refine ⟨[], t, .here, ?_⟩
      cases t <;> first
        | (exfalso; exact hs ⟨_, _, rfl⟩)
        | (simp only [outputWrappers] at hc
           split at hc
           · cases hc
           · simpa [own, classAt] using hc)

theorem size_field_ne {t : Ty} (hp : Plain t) (h : t.size ≠ 0) {path u} (ha : At t path u) : u.size ≠ 0 := by
  induction ha with
  | here => exact h
  | @field ns ts f v path u hm _ ih =>
    refine ih (hp.field hm) ?_
    exact (hp [] _ _ .here).2.2.2 v (List.of_mem_zip hm).2

theorem at_mem {t : Ty} (hp : Plain t) (h : t.size ≠ 0) {p u} (ha : At t p u) (path : List Str) (cls : Str) :
    own (path ++ p) (classAt cls p) u ∈ outputWrappers path cls t := by
  induction ha generalizing path cls with
  | here => simpa [classAt] using own_mem path cls _ h
  | @field ns ts f v p u hm _ ih =>
    have hv := (hp [] _ _ .here).2.2.2 v (List.of_mem_zip hm).2
    have := ih (hp.field hm) hv (path ++ [f]) (fieldClass cls f)
    rw [List.append_assoc] at this
    exact field_subset h hm _ this

/-- The fields of a plain type have no underscore in their paths. -/
theorem at_plain {t : Ty} (hp : Plain t) {p u} (ha : At t p u) : ∀ n ∈ p, '_' ∉ n := by
  induction ha with
  | here => intro n hn; cases hn
  | @field ns ts f v p u hm _ ih =>
    intro n hn
    rcases List.mem_cons.1 hn with rfl | h
    · exact ((hp [] _ _ .here).2.2.1 n (List.of_mem_zip hm).1).1
    · exact ih (hp.field hm) n h

/-- What the class of a path has after the name of the class it starts from. -/
def suffix : List Str → Str
  | [] => []
  | f :: p => '_' :: (f ++ suffix p)

theorem classAt_eq (cls : Str) (p : List Str) : classAt cls p = cls ++ suffix p := by
  induction p generalizing cls with
  | nil => simp [classAt, suffix]
  | cons f p ih => simp [classAt, suffix, ih, fieldClass]

theorem suffix_head (p : List Str) : suffix p = [] ∨ ∃ r, suffix p = '_' :: r := by
  cases p with
  | nil => exact Or.inl rfl
  | cons f p => exact Or.inr ⟨_, rfl⟩

theorem split_eq : ∀ {a b r s : Str}, '_' ∉ a → '_' ∉ b → (r = [] ∨ ∃ r', r = '_' :: r') →
    (s = [] ∨ ∃ s', s = '_' :: s') → a ++ r = b ++ s → a = b ∧ r = s
  | [], [], r, s, _, _, _, _, h => ⟨rfl, h⟩
  | [], b :: bs, r, s, _, hb, hr, _, h => by
    rcases hr with rfl | ⟨r', rfl⟩
    · cases h
    · injection h with h1 _
      exact absurd (h1 ▸ List.mem_cons_self) hb
  | a :: as, [], r, s, ha, _, _, hs, h => by
    rcases hs with rfl | ⟨s', rfl⟩
    · cases h
    · injection h with h1 _
      exact absurd (h1 ▸ List.mem_cons_self) ha
  | a :: as, b :: bs, r, s, ha, hb, hr, hs, h => by
    injection h with h1 h2
    have := split_eq (fun h => ha (List.mem_cons_of_mem _ h)) (fun h => hb (List.mem_cons_of_mem _ h)) hr hs h2
    exact ⟨by rw [h1, this.1], this.2⟩

theorem suffix_inj : ∀ {p q : List Str}, (∀ n ∈ p, '_' ∉ n) → (∀ n ∈ q, '_' ∉ n) →
    suffix p = suffix q → p = q
  | [], [], _, _, _ => rfl
  | [], g :: q, _, _, h => by simp [suffix] at h
  | f :: p, [], _, _, h => by simp [suffix] at h
  | f :: p, g :: q, hp, hq, h => by
    simp only [suffix, List.cons.injEq, true_and] at h
    have h' := split_eq (hp f (by simp)) (hq g (by simp)) (suffix_head p) (suffix_head q) h
    rw [h'.1, suffix_inj (fun n hn => hp n (by simp [hn])) (fun n hn => hq n (by simp [hn])) h'.2]

theorem names_of {t path cls} : ∀ c ∈ outputWrappers path cls t, ∃ p u, At t p u ∧
    c.name = cls ++ suffix p := by
  intro c hc
  obtain ⟨p, u, h1, h2⟩ := mem_outputWrappers rfl c hc
  exact ⟨p, u, h1, by rw [h2, own_name, classAt_eq]⟩

theorem zip_names_nodup : ∀ {ns : List Str} {ts : List Ty}, ns.Nodup →
    (ns.zip ts).Pairwise fun a b => a.1 ≠ b.1
  | [], _, _ => by simp
  | _ :: _, [], _ => by simp
  | n :: ns, t :: ts, h => by
    rw [List.nodup_cons] at h
    simp only [List.zip_cons_cons, List.pairwise_cons]
    refine ⟨fun m hm he => h.1 ?_, zip_names_nodup h.2⟩
    rw [he]
    exact (List.of_mem_zip (a := m.1) (b := m.2) hm).1

theorem pairwise_flatMap {α β : Type} {R : β → β → Prop} {g : α → List β} : ∀ {l : List α},
    (∀ a ∈ l, (g a).Pairwise R) → l.Pairwise (fun a b => ∀ x ∈ g a, ∀ y ∈ g b, R x y) →
    (l.flatMap g).Pairwise R
  | [], _, _ => by simp
  | a :: l, h1, h2 => by
    rw [List.pairwise_cons] at h2
    rw [List.flatMap_cons, List.pairwise_append]
    refine ⟨h1 a (by simp), pairwise_flatMap (fun b hb => h1 b (by simp [hb])) h2.2, ?_⟩
    intro x hx y hy
    obtain ⟨b, hb, hy⟩ := List.mem_flatMap.1 hy
    exact h2.1 b hb x hx y hy

theorem names_nodup : ∀ n t, sizeOf t < n → Plain t → ∀ path cls,
    (outputWrappers path cls t).Pairwise fun c d => c.name ≠ d.name := by
  intro n
  induction n with
  | zero => intro t h; omega
  | succ n ih =>
    intro t ht hp path cls
    by_cases hs : ∃ ns ts, t = .struct ns ts
    · obtain ⟨ns, ts, rfl⟩ := hs
      obtain ⟨hnd, _, hun, _⟩ := hp [] _ _ .here
      simp only [outputWrappers]
      split
      · simp
      rw [fieldWrappers_eq, List.pairwise_append]
      have hname : ∀ m ∈ ns.zip ts, ∀ c ∈ outputWrappers (path ++ [m.1]) (fieldClass cls m.1) m.2,
          ∃ p u, At m.2 p u ∧ c.name = cls ++ suffix (m.1 :: p) := by
        intro m _ c hc
        obtain ⟨p, u, h1, h2⟩ := names_of c hc
        exact ⟨p, u, h1, by rw [h2]; simp [fieldClass, suffix]⟩
      refine ⟨pairwise_flatMap ?_ ?_, by simp, ?_⟩
      · intro m hm
        have hv := (List.of_mem_zip (a := m.1) (b := m.2) hm).2
        have hlt := List.sizeOf_lt_of_mem hv
        have hst : sizeOf (Ty.struct ns ts) = 1 + sizeOf ns + sizeOf ts := by simp
        exact ih m.2 (by omega) (hp.field (f := m.1) hm) _ _
      · refine List.Pairwise.imp_of_mem ?_ (zip_names_nodup hnd)
        intro a b ha hb hab x hx y hy he
        obtain ⟨p, u, h1, h2⟩ := hname a ha x hx
        obtain ⟨q, w, h3, h4⟩ := hname b hb y hy
        rw [h2, h4] at he
        have := suffix_inj (at_plain hp (.field (f := a.1) ha h1)) (at_plain hp (.field (f := b.1) hb h3))
          (List.append_cancel_left he)
        exact hab (by injection this)
      · intro x hx y hy he
        obtain ⟨m, hm, hx⟩ := List.mem_flatMap.1 hx
        obtain ⟨p, u, h1, h2⟩ := hname m hm x hx
        rw [List.mem_singleton] at hy
        rw [h2, hy] at he
        have := congrArg List.length he
        simp [suffix] at this
    · cases t <;> first
        | (exfalso; exact hs ⟨_, _, rfl⟩)
        | (simp only [outputWrappers]; split <;> simp)

theorem at_snoc {t p ns ts f v} (h : At t p (.struct ns ts)) (hz : (f, v) ∈ ns.zip ts) :
    At t (p ++ [f]) v := by
  generalize hu : Ty.struct ns ts = u at h
  induction h with
  | here => subst hu; exact .field hz .here
  | field hm _ ih => exact .field hm (ih hu)

theorem classAt_snoc (cls : Str) (p : List Str) (f : Str) :
    classAt cls (p ++ [f]) = fieldClass (classAt cls p) f := by
  induction p generalizing cls with
  | nil => rfl
  | cons g p ih => exact ih _

theorem compiles {t : Ty} (hp : Plain t) (h : t.size ≠ 0) (cls : Str) :
    Compiles (outputWrappers [] cls t) := by
  refine ⟨List.pairwise_map.2 (names_nodup _ t (Nat.lt_succ_self _) hp [] cls), ?_, ?_⟩
  · intro c hc
    obtain ⟨p, u, h1, rfl⟩ := mem_outputWrappers rfl c hc
    by_cases hs : ∃ ns ts, u = .struct ns ts
    · obtain ⟨ns, ts, rfl⟩ := hs
      obtain ⟨hnd, hl, hun, _⟩ := hp p _ _ h1
      have : (ns.zip ts).map Prod.fst = ns := List.map_fst_zip (by omega)
      have hm : (own ([] ++ p) (classAt cls p) (.struct ns ts)).members.map Prod.fst = ns := by
        simp only [own, List.map_map]
        exact this
      rw [hm]
      exact ⟨hnd, fun hr => (hun _ hr).2 rfl⟩
    · cases u <;> first
        | (exfalso; exact hs ⟨_, _, rfl⟩)
        | simp [own]
  · intro c hc m hm
    obtain ⟨p, u, h1, rfl⟩ := mem_outputWrappers rfl c hc
    by_cases hs : ∃ ns ts, u = .struct ns ts
    · obtain ⟨ns, ts, rfl⟩ := hs
      simp only [own, List.mem_map] at hm
      obtain ⟨⟨f, v⟩, hz, rfl⟩ := hm
      refine ⟨_, at_mem hp h (at_snoc h1 hz) [] cls, ?_⟩
      rw [own_name, classAt_snoc]
    · cases u <;> first
        | (exfalso; exact hs ⟨_, _, rfl⟩)
        | simp [own] at hm

theorem nodup_name {cs : List Cls} (h : (cs.map Cls.name).Nodup) {c d : Cls} (hc : c ∈ cs) (hd : d ∈ cs)
    (he : c.name = d.name) : c = d := by
  induction cs with
  | nil => cases hc
  | cons a cs ih =>
    rw [List.map_cons, List.nodup_cons] at h
    rcases List.mem_cons.1 hc with rfl | hc' <;> rcases List.mem_cons.1 hd with rfl | hd'
    · rfl
    · exact absurd (List.mem_map.2 ⟨d, hd', he.symm⟩) h.1
    · exact absurd (List.mem_map.2 ⟨c, hc', he⟩) h.1
    · exact ih h.2 hc' hd'

theorem select_own {t : Ty} (hp : Plain t) (h : t.size ≠ 0) (cls : Str) : ∀ {q p u v}, At t p u →
    At u q v → Select (outputWrappers [] cls t) (classAt cls p) q (own (p ++ q) (classAt cls (p ++ q)) v)
  | [], p, u, v, h1, h2 => by
    cases h2
    have := Select.here (at_mem hp h h1 [] cls)
    rw [own_name] at this
    simpa using this
  | f :: q, p, u, v, h1, h2 => by
    cases h2 with
    | @field ns ts _ w _ _ hm ha =>
      have h3 := select_own hp h cls (at_snoc h1 hm) ha
      have h4 := Select.member (cs := outputWrappers [] cls t) (f := f) (at_mem hp h h1 [] cls)
        (by simp only [own, List.mem_map]; exact ⟨(f, w), hm, rfl⟩)
        (by rw [← classAt_snoc]; exact h3)
      rw [own_name] at h4
      simpa using h4

theorem select_at {t : Ty} (hp : Plain t) (h : t.size ≠ 0) (cls : Str) {q c name}
    (hs : Select (outputWrappers [] cls t) name q c) : ∀ {p u}, At t p u → name = classAt cls p →
    ∃ v, At u q v ∧ c = own (p ++ q) (classAt cls (p ++ q)) v := by
  have hn := (compiles hp h cls).classes
  induction hs with
  | @here c hc =>
    intro p u ha he
    refine ⟨u, .here, ?_⟩
    rw [List.append_nil]
    exact nodup_name hn hc (at_mem hp h ha [] cls) (by rw [own_name, he])
  | @member c m f path d hc hm _ ih =>
    intro p u ha he
    have hce := nodup_name hn hc (at_mem hp h ha [] cls) (by rw [own_name, he])
    rw [hce] at hm
    by_cases hs : ∃ ns ts, u = .struct ns ts
    · obtain ⟨ns, ts, rfl⟩ := hs
      simp only [own, List.mem_map] at hm
      obtain ⟨⟨g, w⟩, hz, hg⟩ := hm
      obtain ⟨rfl, rfl⟩ := Prod.mk.inj hg
      obtain ⟨v, h1, h2⟩ := ih (at_snoc ha hz) (classAt_snoc _ _ _).symm
      exact ⟨v, .field hz h1, by simpa using h2⟩
    · cases u <;> first
        | (exfalso; exact hs ⟨_, _, rfl⟩)
        | simp [own] at hm

end Spade.Cxx
