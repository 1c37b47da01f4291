import Verif.Mir.Alias
/-!
# The alias graph and its clusters
-/
namespace Spade.Mir

abbrev Graph := List (Name × List Name)

/-- Keys of the map. -/
def Graph.keys (g : Graph) : List Name := g.map (·.1)

/-- There is an edge from `a` to `b`. -/
def Adj (g : Graph) (a b : Name) : Prop := ∃ l, (a, l) ∈ g ∧ b ∈ l

/-- `a` and `b` are connected. -/
inductive Conn (R : Name → Name → Prop) : Name → Name → Prop where
  | refl (a) : Conn R a a
  | tail {a b c} : Conn R a b → R b c → Conn R a c

theorem Conn.trans {R : Name → Name → Prop} {a b c : Name} (h : Conn R a b) (h' : Conn R b c) :
    Conn R a c := by
  induction h' with
  | refl => exact h
  | tail _ r ih => exact .tail ih r

theorem Conn.symm {R : Name → Name → Prop} (hs : ∀ a b, R a b → R b a) {a b : Name}
    (h : Conn R a b) : Conn R b a := by
  induction h with
  | refl => exact .refl _
  | tail _ r ih => exact Conn.trans (.tail (.refl _) (hs _ _ r)) ih

theorem Conn.mono {R S : Name → Name → Prop} (hs : ∀ a b, R a b → S a b) {a b : Name}
    (h : Conn R a b) : Conn S a b := by
  induction h with
  | refl => exact .refl _
  | tail _ r ih => exact .tail ih (hs _ _ r)

theorem nodup_snoc {l : List Name} {a : Name} (h : l.Nodup) (ha : a ∉ l) : (l ++ [a]).Nodup := by
  rw [List.nodup_append]
  refine ⟨h, by simp, fun x hx y hy => ?_⟩
  simp only [List.mem_singleton] at hy
  rintro rfl
  exact ha (hy ▸ hx)

theorem unique_entry {n : Name} {l l' : List Name} : ∀ {E : Graph}, E.keys.Nodup → (n, l') ∈ E →
    (n, l) ∈ E → l' = l
  | e :: E, hnd, hm, hm' => by
    simp only [Graph.keys, List.map_cons, List.nodup_cons] at hnd
    rcases List.mem_cons.1 hm with hm | hm <;> rcases List.mem_cons.1 hm' with hm' | hm'
    · rw [← hm] at hm'; cases hm'; rfl
    · exact (hnd.1 (List.mem_map.2 ⟨_, hm', by rw [← hm]⟩)).elim
    · exact (hnd.1 (List.mem_map.2 ⟨_, hm, by rw [← hm']⟩)).elim
    · exact unique_entry hnd.2 hm hm'

theorem keys_pushEdge : ∀ (g : Graph) (a b : Name),
    Graph.keys (pushEdge g a b) = if a ∈ Graph.keys g then Graph.keys g else Graph.keys g ++ [a]
  | [], a, b => by simp [pushEdge, Graph.keys]
  | (n, l) :: es, a, b => by
    simp only [pushEdge]
    by_cases h : n = a
    · simp [h, Graph.keys]
    · have := keys_pushEdge es a b
      simp only [Graph.keys] at this
      simp only [h, if_false, Graph.keys, List.map_cons, this, List.mem_cons, Ne.symm h, false_or]
      split <;> simp_all

theorem adj_pushEdge : ∀ (g : Graph) (a b x y : Name), (Graph.keys g).Nodup →
    (Adj (pushEdge g a b) x y ↔ Adj g x y ∨ (x = a ∧ y = b))
  | [], a, b, x, y, _ => by
    simp only [pushEdge, Adj, List.mem_singleton, Prod.mk.injEq, List.not_mem_nil, false_and,
      exists_false, false_or]
    constructor
    · rintro ⟨l, ⟨rfl, rfl⟩, h⟩; simpa using h
    · rintro ⟨rfl, rfl⟩; exact ⟨_, ⟨rfl, rfl⟩, by simp⟩
  | (n, l) :: es, a, b, x, y, hn => by
    simp only [Graph.keys, List.map_cons, List.nodup_cons] at hn
    simp only [pushEdge]
    by_cases h : n = a
    · subst h
      simp only [if_true, Adj, List.mem_cons, Prod.mk.injEq]
      constructor
      · rintro ⟨l', ⟨rfl, rfl⟩ | hl, hy⟩
        · rcases List.mem_append.1 hy with hy | hy
          · exact Or.inl ⟨l, Or.inl ⟨rfl, rfl⟩, hy⟩
          · exact Or.inr ⟨rfl, by simpa using hy⟩
        · exact Or.inl ⟨l', Or.inr hl, hy⟩
      · rintro (⟨l', ⟨rfl, rfl⟩ | hl, hy⟩ | ⟨rfl, rfl⟩)
        · exact ⟨_, Or.inl ⟨rfl, rfl⟩, List.mem_append_left _ hy⟩
        · exact ⟨l', Or.inr hl, hy⟩
        · exact ⟨_, Or.inl ⟨rfl, rfl⟩, by simp⟩
    · have ih := adj_pushEdge es a b x y hn.2
      have e : ∀ g : Graph, Adj ((n, l) :: g) x y ↔ (x = n ∧ y ∈ l) ∨ Adj g x y := by
        intro g
        simp only [Adj, List.mem_cons, Prod.mk.injEq]
        constructor
        · rintro ⟨l', ⟨rfl, rfl⟩ | hl, hy⟩
          · exact Or.inl ⟨rfl, hy⟩
          · exact Or.inr ⟨l', hl, hy⟩
        · rintro (⟨rfl, hy⟩ | ⟨l', hl, hy⟩)
          · exact ⟨l, Or.inl ⟨rfl, rfl⟩, hy⟩
          · exact ⟨l', Or.inr hl, hy⟩
      simp only [h, if_false, e, ih, or_assoc]

variable {Ty : Type}

/-- `(a, b)` is an alias statement. -/
def IsPair (ps : List (Name × Name × Ty)) (a b : Name) : Prop := ∃ t, (a, b, t) ∈ ps

theorem buildEdges_spec : ∀ (ps : List (Name × Name × Ty)) (g : Graph), (Graph.keys g).Nodup →
    (Graph.keys (buildEdges ps g)).Nodup ∧
    ∀ x y, Adj (buildEdges ps g) x y ↔ Adj g x y ∨ IsPair ps x y ∨ IsPair ps y x
  | [], g, hn => ⟨hn, fun x y => by simp [buildEdges, IsPair]⟩
  | (n, o, t) :: ps, g, hn => by
    have h1 : (Graph.keys (pushEdge g n o)).Nodup := by
      rw [keys_pushEdge]; split
      · exact hn
      · rename_i h; exact nodup_snoc hn h
    have h2 : (Graph.keys (pushEdge (pushEdge g n o) o n)).Nodup := by
      rw [keys_pushEdge]; split
      · exact h1
      · rename_i h; exact nodup_snoc h1 h
    obtain ⟨k, a⟩ := buildEdges_spec ps _ h2
    refine ⟨k, fun x y => ?_⟩
    rw [buildEdges, a, adj_pushEdge _ _ _ _ _ h1, adj_pushEdge _ _ _ _ _ hn]
    simp only [IsPair, List.mem_cons, Prod.mk.injEq]
    constructor
    · rintro ((( h | ⟨rfl, rfl⟩) | ⟨rfl, rfl⟩) | ⟨t', h⟩ | ⟨t', h⟩)
      · exact Or.inl h
      · exact Or.inr (Or.inl ⟨t, Or.inl ⟨rfl, rfl, rfl⟩⟩)
      · exact Or.inr (Or.inr ⟨t, Or.inl ⟨rfl, rfl, rfl⟩⟩)
      · exact Or.inr (Or.inl ⟨t', Or.inr h⟩)
      · exact Or.inr (Or.inr ⟨t', Or.inr h⟩)
    · rintro (h | ⟨t', ⟨rfl, rfl, rfl⟩ | h⟩ | ⟨t', ⟨rfl, rfl, rfl⟩ | h⟩)
      · exact Or.inl (Or.inl (Or.inl h))
      · exact Or.inl (Or.inl (Or.inr ⟨rfl, rfl⟩))
      · exact Or.inr (Or.inl ⟨t', h⟩)
      · exact Or.inl (Or.inr ⟨rfl, rfl⟩)
      · exact Or.inr (Or.inr ⟨t', h⟩)

/-- What every graph of aliases satisfies. -/
structure Graph.Ok (g : Graph) : Prop where
  nodup : g.keys.Nodup
  symm : ∀ a b, Adj g a b → Adj g b a

theorem Adj.key {g : Graph} {a b : Name} (h : Adj g a b) : a ∈ g.keys := by
  obtain ⟨l, hl, _⟩ := h
  exact List.mem_map.2 ⟨_, hl, rfl⟩

theorem Adj.key' {g : Graph} (hg : g.Ok) {a b : Name} (h : Adj g a b) : b ∈ g.keys :=
  (hg.symm _ _ h).key

theorem removeEntry_none : ∀ {g : Graph} {a : Name}, a ∉ g.keys → removeEntry g a = (none, g)
  | [], _, _ => rfl
  | (n, l) :: es, a, h => by
    simp only [Graph.keys, List.map_cons, List.mem_cons, not_or] at h
    simp only [removeEntry, if_neg (Ne.symm h.1), removeEntry_none (g := es) h.2]

/-- Removing an entry that is there. -/
theorem removeEntry_some : ∀ {g : Graph} {a : Name}, g.keys.Nodup → a ∈ g.keys →
    ∃ l, (removeEntry g a).1 = some l ∧ (a, l) ∈ g ∧
      ∀ x, x ∈ (removeEntry g a).2 ↔ (x ∈ g ∧ x.1 ≠ a)
  | (n, l) :: es, a, hn, ha => by
    simp only [Graph.keys, List.map_cons, List.nodup_cons] at hn
    by_cases h : n = a
    · subst h
      refine ⟨l, by simp [removeEntry], by simp, fun x => ?_⟩
      simp only [removeEntry, if_true, List.mem_cons]
      constructor
      · intro hx
        refine ⟨Or.inr hx, ?_⟩
        intro he
        exact hn.1 (List.mem_map.2 ⟨x, hx, he⟩)
      · rintro ⟨rfl | hx, hne⟩
        · exact (hne rfl).elim
        · exact hx
    · have ha' : a ∈ Graph.keys es := by
        simp only [Graph.keys, List.map_cons, List.mem_cons] at ha
        rcases ha with rfl | ha
        · exact (h rfl).elim
        · exact ha
      obtain ⟨l', h1, h2, h3⟩ := removeEntry_some (g := es) hn.2 ha'
      refine ⟨l', by simp [removeEntry, h, h1], by simp [h2], fun x => ?_⟩
      simp only [removeEntry, if_neg h, List.mem_cons, h3]
      constructor
      · rintro (rfl | ⟨h4, h5⟩)
        · exact ⟨Or.inl rfl, h⟩
        · exact ⟨Or.inr h4, h5⟩
      · rintro ⟨rfl | h4, h5⟩
        · exact Or.inl rfl
        · exact Or.inr ⟨h4, h5⟩

theorem removeEntry_nodup : ∀ {g : Graph} {a : Name}, g.keys.Nodup →
    (Graph.keys (removeEntry g a).2).Nodup := by
  intro g a h
  have : ∀ (g : Graph) a, (removeEntry g a).2.Sublist g := by
    intro g a
    induction g with
    | nil => exact List.Sublist.refl _
    | cons x es ih =>
      obtain ⟨n, l⟩ := x
      simp only [removeEntry]
      split
      · exact List.sublist_cons_self _ _
      · exact ih.cons_cons _
  exact h.sublist ((this g a).map _)

theorem mem_setInsert {s : List Name} {a x : Name} : x ∈ setInsert s a ↔ x ∈ s ∨ x = a := by
  simp only [setInsert]
  split
  · constructor
    · exact Or.inl
    · rintro (h | rfl)
      · exact h
      · assumption
  · simp

theorem nodup_setInsert {s : List Name} {a : Name} (h : s.Nodup) : (setInsert s a).Nodup := by
  simp only [setInsert]
  split
  · exact h
  · rename_i ha
    exact nodup_snoc h ha

/-- Invariant of the inner loop, started on the graph `g`. -/
structure CInv (g : Graph) (src : Name) (q : List Name) (E : Graph) (c : List Name) : Prop where
  sub : ∀ x ∈ E, x ∈ g
  keep : ∀ x ∈ g, x.1 ∈ E.keys → x ∈ E
  nodup : E.keys.Nodup
  cnodup : c.Nodup
  inC : ∀ x ∈ c, x ∈ g.keys ∧ x ∉ E.keys
  gone : ∀ x ∈ g.keys, x ∉ E.keys → x ∈ c
  next : ∀ x ∈ c, ∀ y, Adj g x y → y ∈ c ∨ y ∈ q
  queue : ∀ x ∈ q, x ∈ g.keys
  conn : ∀ x, x ∈ c ∨ x ∈ q → Conn (Adj g) src x

theorem collect_inv {g : Graph} (hg : g.Ok) {src : Name} (q : List Name) (E : Graph)
    (c : List Name) (h : CInv g src q E c) :
    CInv g src [] (collect q E c).2 (collect q E c).1 ∧ ∀ x ∈ c, x ∈ (collect q E c).1 := by
  fun_induction collect q E c with
  | case1 => exact ⟨h, fun _ hx => hx⟩
  | case2 E c n q ih =>
    have hnext : CInv g src (q ++ (removeEntry E n).1.getD []) (removeEntry E n).2
        (setInsert c n) := by
      have hnk : n ∈ g.keys := h.queue n (by simp)
      by_cases hn : n ∈ Graph.keys E
      · obtain ⟨l, h1, h2, h3⟩ := removeEntry_some h.nodup hn
        have hk : ∀ x, x ∈ Graph.keys (removeEntry E n).2 ↔ x ∈ Graph.keys E ∧ x ≠ n := by
          intro x
          simp only [Graph.keys, List.mem_map, h3]
          constructor
          · rintro ⟨y, ⟨hy, hne⟩, rfl⟩; exact ⟨⟨y, hy, rfl⟩, hne⟩
          · rintro ⟨⟨y, hy, rfl⟩, hne⟩; exact ⟨y, ⟨hy, hne⟩, rfl⟩
        have hadj : ∀ y, Adj g n y → y ∈ l := by
          rintro y ⟨l', hl', hy⟩
          have := unique_entry h.nodup (h.keep _ hl' hn) h2
          subst this; exact hy
        simp only [h1, Option.getD_some]
        refine ⟨fun x hx => h.sub x ((h3 x).1 hx).1, fun x hx hxk => ?_, removeEntry_nodup h.nodup,
          nodup_setInsert h.cnodup, fun x hx => ?_, fun x hx hxn => ?_, fun x hx y hy => ?_,
          fun x hx => ?_, fun x hx => ?_⟩
        · rw [hk] at hxk
          exact (h3 x).2 ⟨h.keep x hx hxk.1, hxk.2⟩
        · rw [hk]
          rcases mem_setInsert.1 hx with hx | rfl
          · exact ⟨(h.inC x hx).1, fun hc => (h.inC x hx).2 hc.1⟩
          · exact ⟨hnk, fun hc => hc.2 rfl⟩
        · rw [hk] at hxn
          rw [mem_setInsert]
          by_cases hxe : x = n
          · exact Or.inr hxe
          · exact Or.inl (h.gone x hx fun hc => hxn ⟨hc, hxe⟩)
        · rcases mem_setInsert.1 hx with hx | rfl
          · rcases h.next x hx y hy with h4 | h4
            · exact Or.inl (mem_setInsert.2 (Or.inl h4))
            · rcases List.mem_cons.1 h4 with rfl | h4
              · exact Or.inl (mem_setInsert.2 (Or.inr rfl))
              · exact Or.inr (List.mem_append_left _ h4)
          · exact Or.inr (List.mem_append_right _ (hadj y hy))
        · rcases List.mem_append.1 hx with hx | hx
          · exact h.queue x (List.mem_cons_of_mem _ hx)
          · exact Adj.key' hg (a := n) ⟨l, h.sub _ h2, hx⟩
        · have hcn : Conn (Adj g) src n := h.conn n (Or.inr (by simp))
          rcases hx with hx | hx
          · rcases mem_setInsert.1 hx with hx | rfl
            · exact h.conn x (Or.inl hx)
            · exact hcn
          · rcases List.mem_append.1 hx with hx | hx
            · exact h.conn x (Or.inr (List.mem_cons_of_mem _ hx))
            · exact .tail hcn ⟨l, h.sub _ h2, hx⟩
      · rw [removeEntry_none hn]
        have hc : n ∈ c := h.gone n hnk hn
        have hs : setInsert c n = c := by simp [setInsert, hc]
        simp only [Option.getD_none, List.append_nil, hs]
        refine ⟨h.sub, h.keep, h.nodup, h.cnodup, h.inC, h.gone, fun x hx y hy => ?_,
          fun x hx => h.queue x (List.mem_cons_of_mem _ hx), fun x hx => h.conn x ?_⟩
        · rcases h.next x hx y hy with h4 | h4
          · exact Or.inl h4
          · rcases List.mem_cons.1 h4 with rfl | h4
            · exact Or.inl hc
            · exact Or.inr h4
        · rcases hx with hx | hx
          · exact Or.inl hx
          · exact Or.inr (List.mem_cons_of_mem _ hx)
    obtain ⟨h1, h2⟩ := ih hnext
    exact ⟨h1, fun x hx => h2 x (mem_setInsert.2 (Or.inl hx))⟩

/-- What the clusters are. -/
structure ClustersOk (R : Name → Name → Prop) (keys : List Name) (cs : List (List Name)) : Prop where
  nodup : ∀ c ∈ cs, c.Nodup
  disjoint : cs.Pairwise fun c d => ∀ x ∈ c, x ∉ d
  mem : ∀ x, (∃ c ∈ cs, x ∈ c) ↔ x ∈ keys
  closed : ∀ c ∈ cs, ∀ x ∈ c, ∀ y, R x y → y ∈ c
  conn : ∀ c ∈ cs, ∀ x ∈ c, ∀ y ∈ c, Conn R x y

theorem clusters_ok (g : Graph) (hg : g.Ok) : ClustersOk (Adj g) g.keys (clusters g) := by
  fun_induction clusters g with
  | case1 =>
    exact ⟨by simp, List.Pairwise.nil, by simp [Graph.keys], by simp, by simp⟩
  | case2 src l es r ih =>
    have hn := hg.nodup
    simp only [Graph.keys, List.map_cons, List.nodup_cons] at hn
    have hinit : CInv ((src, l) :: es) src l es [src] := by
      refine ⟨fun x hx => List.mem_cons_of_mem _ hx, fun x hx hxk => ?_, hn.2, by simp,
        fun x hx => ?_, fun x hx hxn => ?_, fun x hx y hy => ?_, fun x hx => ?_, fun x hx => ?_⟩
      · rcases List.mem_cons.1 hx with rfl | hx
        · exact (hn.1 hxk).elim
        · exact hx
      · simp only [List.mem_singleton] at hx; subst hx
        exact ⟨by simp [Graph.keys], hn.1⟩
      · simp only [Graph.keys, List.map_cons, List.mem_cons] at hx
        rcases hx with rfl | hx
        · simp
        · exact (hxn hx).elim
      · simp only [List.mem_singleton] at hx; subst hx
        obtain ⟨l', hl', hy⟩ := hy
        rcases List.mem_cons.1 hl' with hl' | hl'
        · cases hl'; exact Or.inr hy
        · exact (hn.1 (List.mem_map.2 ⟨_, hl', rfl⟩)).elim
      · exact Adj.key' hg (a := src) ⟨l, by simp, hx⟩
      · rcases hx with hx | hx
        · simp only [List.mem_singleton] at hx; subst hx; exact .refl _
        · exact .tail (.refl _) ⟨l, by simp, hx⟩
    obtain ⟨h, hsrc⟩ := collect_inv hg l es [src] hinit
    have hclosed : ∀ x ∈ r.1, ∀ y, Adj ((src, l) :: es) x y → y ∈ r.1 := by
      intro x hx y hy
      rcases h.next x hx y hy with h | h
      · exact h
      · cases h
    have hsub : ∀ a b, Adj r.2 a b → Adj ((src, l) :: es) a b := by
      rintro a b ⟨l', hl', hb⟩; exact ⟨l', h.sub _ hl', hb⟩
    have hrest : ∀ a b, Adj ((src, l) :: es) a b → a ∈ Graph.keys r.2 → Adj r.2 a b := by
      rintro a b ⟨l', hl', hb⟩ ha; exact ⟨l', h.keep _ hl' ha, hb⟩
    have hkeys : ∀ x, x ∈ Graph.keys ((src, l) :: es) ↔ x ∈ r.1 ∨ x ∈ Graph.keys r.2 := by
      intro x
      constructor
      · intro hx
        by_cases hx2 : x ∈ Graph.keys r.2
        · exact Or.inr hx2
        · exact Or.inl (h.gone x hx hx2)
      · rintro (hx | hx)
        · exact (h.inC x hx).1
        · obtain ⟨e, he, rfl⟩ := List.mem_map.1 hx
          exact List.mem_map.2 ⟨e, h.sub _ he, rfl⟩
    have hg2 : Graph.Ok r.2 := by
      refine ⟨h.nodup, fun a b hab => ?_⟩
      have hba := hg.symm _ _ (hsub a b hab)
      rcases (hkeys b).1 hba.key with hb | hb
      · have := hclosed b hb a hba
        exact ((h.inC a this).2 hab.key).elim
      · exact hrest b a hba hb
    have ih := ih hg2
    have hdis : ∀ x ∈ r.1, ∀ d ∈ clusters r.2, x ∉ d := by
      intro x hx d hd hxd
      exact (h.inC x hx).2 ((ih.mem x).1 ⟨d, hd, hxd⟩)
    have hconnr : ∀ x ∈ r.1, ∀ y ∈ r.1, Conn (Adj ((src, l) :: es)) x y := fun x hx y hy =>
      (Conn.symm hg.symm (h.conn x (Or.inl hx))).trans (h.conn y (Or.inl hy))
    refine ⟨?_, ?_, fun x => ?_, ?_, ?_⟩
    · intro c hc
      rcases List.mem_cons.1 hc with rfl | hc
      · exact h.cnodup
      · exact ih.nodup c hc
    · rw [List.pairwise_cons]
      exact ⟨fun d hd x hx => hdis x hx d hd, ih.disjoint⟩
    · rw [hkeys, ← ih.mem x]
      simp only [List.mem_cons, exists_eq_or_imp]
    · intro c hc x hx y hy
      rcases List.mem_cons.1 hc with rfl | hc
      · exact hclosed x hx y hy
      · exact ih.closed c hc x hx y (hrest x y hy ((ih.mem x).1 ⟨c, hc, hx⟩))
    · intro c hc x hx y hy
      rcases List.mem_cons.1 hc with rfl | hc
      · exact hconnr x hx y hy
      · exact (ih.conn c hc x hx y hy).mono hsub

end Spade.Mir
