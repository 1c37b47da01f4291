import Verif.Trait.Model
/-!
# Meanings are preserved by the rewriting the checks do
-/
namespace Spade.Trait

/-! ## Meanings depend only on what a type mentions -/

/-- Two environments agree on what `p`, `q` and `s` allow a type to mention. -/
structure Agree (p : Gen → Prop) (q : Nat → Prop) (s : Prop) (E F : Env) : Prop where
  un : E.un = F.un
  bin : E.bin = F.bin
  gen : ∀ g, p g → E.gen g = F.gen g
  alias : ∀ n, q n → E.alias n = F.alias n
  name : ∀ n, q n → E.alias n = none → E.name n = F.name n
  self : s → E.self = F.self

theorem CG.den_congr {p q s E F} (h : Agree p q s E F) :
    ∀ {c : CG}, c.Over p → c.den E = c.den F
  | .name n, hc => h.gen _ hc
  | .int _, _ => rfl
  | .bool _, _ => rfl
  | .str _, _ => rfl
  | .un o a, hc => by
    simp only [CG.den, CG.den_congr h (c := a) hc, h.un]
  | .bin o a b, hc => by
    simp only [CG.den, CG.den_congr h (c := a) hc.1, CG.den_congr h (c := b) hc.2, h.bin]

mutual
theorem Ty.den_congr {p q s E F} (h : Agree p q s E F) :
    ∀ {t : Ty}, t.Over p q s → t.den E = t.den F
  | .decl n args, ht => by
    simp only [Ty.Over] at ht
    simp only [Ty.den, ← h.alias n ht.1]
    cases ha : E.alias n with
    | some v => rfl
    | none => simp only [h.name n ht.1 ha, dens_congr h (ts := args) ht.2]
  | .gen g, ht => by simp only [Ty.Over] at ht; exact h.gen g ht
  | .tup ts, ht => by
    simp only [Ty.Over] at ht
    simp only [Ty.den, dens_congr h (ts := ts) ht]
  | .arr a b, ht => by
    simp only [Ty.Over] at ht
    simp only [Ty.den, Ty.den_congr h (t := a) ht.1, Ty.den_congr h (t := b) ht.2]
  | .inv t, ht => by
    simp only [Ty.Over] at ht
    simp only [Ty.den, Ty.den_congr h (t := t) ht]
  | .copy t, ht => by
    simp only [Ty.Over] at ht
    simp only [Ty.den, Ty.den_congr h (t := t) ht]
  | .self, ht => by simp only [Ty.Over] at ht; exact h.self ht
  | .wild, _ => rfl
  | .bool _, _ => rfl
  | .int _, _ => rfl
  | .str _, _ => rfl
  | .cg c, ht => by simp only [Ty.Over] at ht; exact CG.den_congr h ht
theorem dens_congr {p q s E F} (h : Agree p q s E F) :
    ∀ {ts : List Ty}, overs p q s ts → dens E ts = dens F ts
  | [], _ => rfl
  | t :: ts, ht => by
    simp only [overs] at ht
    simp only [dens, Ty.den_congr h (t := t) ht.1, dens_congr h (ts := ts) ht.2]
end

/-! ## Replacing `Self` and associated types -/

section Resolve
variable {target : Ty} {selfId : Nat} {remap : List (Nat × Nat)} {E J : Env} {S : Val}

/-- `J` reads `Self`, its alias and associated types directly; `E` knows nothing of
them. -/
structure Unfolds (target : Ty) (selfId : Nat) (remap : List (Nat × Nat)) (S : Val)
    (E J : Env) : Prop where
  un : E.un = J.un
  bin : E.bin = J.bin
  gen : E.gen = J.gen
  alias : ∀ n, E.alias n = none
  name : ∀ n, E.name n = n
  jalias : ∀ n, J.alias n = if n = selfId then some S else none
  jname : ∀ n, n ≠ selfId → J.name n = (remap.lookup n).getD n
  jself : J.self = some S
  target : target.den E = some S

theorem CG.den_unfolds (h : Unfolds target selfId remap S E J) :
    ∀ c : CG, c.den E = c.den J
  | .name n => by simp only [CG.den, h.gen]
  | .int _ => rfl
  | .bool _ => rfl
  | .str _ => rfl
  | .un o a => by simp only [CG.den, CG.den_unfolds h a, h.un]
  | .bin o a b => by simp only [CG.den, CG.den_unfolds h a, CG.den_unfolds h b, h.bin]

mutual
theorem den_resolve (h : Unfolds target selfId remap S E J) :
    ∀ t : Ty, (resolve target selfId remap t).den E = t.den J
  | .decl n args => by
    simp only [resolve, Ty.den, h.jalias]
    split
    · exact h.target
    · rename_i hn
      simp only [Ty.den, h.alias, h.name, h.jname n hn, dens_resolve h args]
  | .gen g => by simp only [resolve, Ty.den, h.gen]
  | .tup ts => by simp only [resolve, Ty.den, dens_resolve h ts]
  | .arr a b => by simp only [resolve, Ty.den, den_resolve h a, den_resolve h b]
  | .inv t => by simp only [resolve, Ty.den, den_resolve h t]
  | .copy t => by simp only [resolve, Ty.den, den_resolve h t]
  | .self => by simp only [resolve, Ty.den, h.jself, h.target]
  | .wild => by simp only [resolve, Ty.den]
  | .bool _ => by simp only [resolve, Ty.den]
  | .int _ => by simp only [resolve, Ty.den]
  | .str _ => by simp only [resolve, Ty.den]
  | .cg c => by simp only [resolve, Ty.den, CG.den_unfolds h c]
theorem dens_resolve (h : Unfolds target selfId remap S E J) :
    ∀ ts : List Ty, dens E (resolves target selfId remap ts) = dens J ts
  | [] => by simp only [resolves, dens]
  | t :: ts => by simp only [resolves, dens, den_resolve h t, dens_resolve h ts]
end

end Resolve

/-! ## Putting arguments for parameters -/

/-- `K` reads a parameter as `J` reads what is put in its place. -/
structure Puts (s : Subst) (p : Gen → Prop) (q : Nat → Prop) (J K : Env) : Prop where
  un : J.un = K.un
  bin : J.bin = K.bin
  self : J.self = K.self
  alias : J.alias = K.alias
  name : J.name = K.name
  gen : ∀ g, p g → J.gen g = K.gen g
  find : ∀ g a, s.find g = some a → a.den J = K.gen g

theorem den_asCG {t : Ty} {c : CG} (E : Env) (h : asCG t = some c) : c.den E = t.den E := by
  unfold asCG at h
  split at h <;> first | (injection h with h; subst h; rfl) | cases h

theorem asSpec_eq {t t' : Ty} (h : asSpec t = some t') : t' = t := by
  unfold asSpec at h
  split at h <;> first | (injection h with h; exact h.symm) | cases h

theorem den_mapCG {s p q J K} (h : Puts s p q J K) :
    ∀ {c c' : CG}, mapCG s c = some c' → c'.den J = c.den K
  | .name n, c', hm => by
    simp only [mapCG, Option.bind_eq_some_iff] at hm
    obtain ⟨a, ha, hc⟩ := hm
    rw [den_asCG J hc, h.find _ _ ha]; rfl
  | .int _, _, hm => by simp only [mapCG, Option.some.injEq] at hm; subst hm; rfl
  | .bool _, _, hm => by simp only [mapCG, Option.some.injEq] at hm; subst hm; rfl
  | .str _, _, hm => by simp only [mapCG, Option.some.injEq] at hm; subst hm; rfl
  | .un o a, c', hm => by
    simp only [mapCG, Option.map_eq_some_iff] at hm
    obtain ⟨x, hx, rfl⟩ := hm
    simp only [CG.den, den_mapCG h hx, h.un]
  | .bin o a b, c', hm => by
    simp only [mapCG, Option.bind_eq_some_iff, Option.map_eq_some_iff] at hm
    obtain ⟨x, hx, y, hy, rfl⟩ := hm
    simp only [CG.den, den_mapCG h hx, den_mapCG h hy, h.bin]

mutual
theorem den_mapTy {s p q J K} (h : Puts s p q J K) :
    ∀ {t t' : Ty}, t.Over p q True → mapTy s t = some t' → t'.den J = t.den K
  | .decl n args, t', ht, hm => by
    simp only [mapTy, Option.map_eq_some_iff] at hm
    obtain ⟨x, hx, rfl⟩ := hm
    simp only [Ty.Over] at ht
    simp only [Ty.den, dens_mapTys h ht.2 hx, h.alias, h.name]
  | .gen g, t', ht, hm => by
    simp only [mapTy, Option.bind_eq_some_iff] at hm
    obtain ⟨a, ha, hs⟩ := hm
    rw [asSpec_eq hs, h.find _ _ ha]; rfl
  | .tup ts, t', ht, hm => by
    simp only [mapTy, Option.map_eq_some_iff] at hm
    obtain ⟨x, hx, rfl⟩ := hm
    simp only [Ty.Over] at ht
    simp only [Ty.den, dens_mapTys h ht hx]
  | .arr a b, t', ht, hm => by
    simp only [mapTy, Option.bind_eq_some_iff, Option.map_eq_some_iff] at hm
    obtain ⟨x, hx, y, hy, rfl⟩ := hm
    simp only [Ty.Over] at ht
    simp only [Ty.den, den_mapTy h ht.1 hx, den_mapTy h ht.2 hy]
  | .inv t, t', ht, hm => by
    simp only [mapTy, Option.map_eq_some_iff] at hm
    obtain ⟨x, hx, rfl⟩ := hm
    simp only [Ty.Over] at ht
    simp only [Ty.den, den_mapTy h ht hx]
  | .copy t, t', ht, hm => by
    simp only [mapTy, Option.some.injEq] at hm
    subst hm
    simp only [Ty.Over] at ht
    have ha : Agree p q True J K :=
      ⟨h.un, h.bin, h.gen, fun n _ => by rw [h.alias], fun n _ _ => by rw [h.name],
        fun _ => h.self⟩
    simp only [Ty.den, Ty.den_congr ha ht]
  | .self, t', _, hm => by
    simp only [mapTy, Option.some.injEq] at hm
    subst hm
    exact h.self
  | .wild, t', _, hm => by simp only [mapTy, Option.some.injEq] at hm; subst hm; rfl
  | .bool _, t', _, hm => by simp only [mapTy, Option.some.injEq] at hm; subst hm; rfl
  | .int _, t', _, hm => by simp only [mapTy, Option.some.injEq] at hm; subst hm; rfl
  | .str _, t', _, hm => by simp only [mapTy, Option.some.injEq] at hm; subst hm; rfl
  | .cg c, t', _, hm => by
    simp only [mapTy, Option.map_eq_some_iff] at hm
    obtain ⟨x, hx, rfl⟩ := hm
    simp only [Ty.den, den_mapCG h hx]
theorem dens_mapTys {s p q J K} (h : Puts s p q J K) :
    ∀ {ts ts' : List Ty}, overs p q True ts → mapTys s ts = some ts' → dens J ts' = dens K ts
  | [], ts', _, hm => by simp only [mapTys, Option.some.injEq] at hm; subst hm; rfl
  | t :: ts, ts', ht, hm => by
    simp only [mapTys, Option.bind_eq_some_iff, Option.map_eq_some_iff] at hm
    obtain ⟨x, hx, xs, hxs, rfl⟩ := hm
    simp only [overs] at ht
    simp only [dens, den_mapTy h ht.1 hx, dens_mapTys h ht.2 hxs]
end

theorem mapTys_get {s : Subst} : ∀ {ts xs : List Ty} {i : Nat} {t : Ty}, mapTys s ts = some xs →
    ts[i]? = some t → ∃ x, xs[i]? = some x ∧ mapTy s t = some x
  | [], _, _, _, _, h => by simp at h
  | a :: as, xs, i, t, hm, h => by
    simp only [mapTys, Option.bind_eq_some_iff, Option.map_eq_some_iff] at hm
    obtain ⟨x, hx, ys, hys, rfl⟩ := hm
    cases i with
    | zero => simp only [List.getElem?_cons_zero, Option.some.injEq] at h; subst h; exact ⟨x, rfl, hx⟩
    | succ i =>
      obtain ⟨y, h1, h2⟩ := mapTys_get (i := i) hys (by simpa using h)
      exact ⟨y, by simpa using h1, h2⟩

theorem mapTys_length {s : Subst} : ∀ {ts xs : List Ty}, mapTys s ts = some xs →
    xs.length = ts.length
  | [], _, hm => by simp only [mapTys, Option.some.injEq] at hm; subst hm; rfl
  | a :: as, xs, hm => by
    simp only [mapTys, Option.bind_eq_some_iff, Option.map_eq_some_iff] at hm
    obtain ⟨x, hx, ys, hys, rfl⟩ := hm
    simp [mapTys_length hys]

/-! ## Finding parameters and arguments -/

theorem findPos_get {g : Gen} : ∀ {ks : List Gen} {i : Nat}, findPos g ks = some i →
    ks[i]? = some g
  | [], _, h => by simp [findPos] at h
  | k :: ks, i, h => by
    simp only [findPos] at h
    split at h
    · rename_i hk; injection h with h; subst h; simp [hk]
    · rw [Option.map_eq_some_iff] at h
      obtain ⟨j, hj, rfl⟩ := h
      simpa using findPos_get hj

theorem fillArgs_get : ∀ {as : List Ty} {ps : List (Gen × Option Ty)} {xs : List Ty} {i : Nat}
    {x : Ty}, fillArgs as ps = some xs → xs[i]? = some x →
    ∃ g d, ps[i]? = some (g, d) ∧
      (as[i]? = some x ∨ (as[i]? = none ∧ d = some x))
  | [], [], xs, i, x, hf, hx => by
    simp only [fillArgs, Option.some.injEq] at hf; subst hf; simp at hx
  | a :: as, (g, d) :: ps, xs, i, x, hf, hx => by
    simp only [fillArgs, Option.map_eq_some_iff] at hf
    obtain ⟨ys, hys, rfl⟩ := hf
    cases i with
    | zero => exact ⟨g, d, rfl, Or.inl hx⟩
    | succ i =>
      obtain ⟨g', d', h1, h2⟩ := fillArgs_get hys (by simpa using hx)
      exact ⟨g', d', by simpa using h1, by simpa using h2⟩
  | [], (g, d) :: ps, xs, i, x, hf, hx => by
    simp only [fillArgs, Option.bind_eq_some_iff, Option.map_eq_some_iff] at hf
    obtain ⟨a, ha, ys, hys, rfl⟩ := hf
    cases i with
    | zero =>
      simp only [List.getElem?_cons_zero, Option.some.injEq] at hx
      subst hx
      exact ⟨g, d, rfl, Or.inr ⟨rfl, ha⟩⟩
    | succ i =>
      obtain ⟨g', d', h1, h2⟩ := fillArgs_get hys (by simpa using hx)
      exact ⟨g', d', by simpa using h1, by simpa using h2⟩
  | _ :: _, [], xs, i, x, hf, _ => by simp [fillArgs] at hf

/-! ## Associated types -/

theorem find_unique {α : Type} (f : α → Nat) : ∀ {as : List α} {a : α},
    (as.map f).Nodup → a ∈ as → as.find? (fun x => decide (f x = f a)) = some a
  | [], _, _, h => by cases h
  | b :: bs, a, hn, h => by
    rw [List.map_cons, List.nodup_cons] at hn
    by_cases hb : f b = f a
    · rcases List.mem_cons.mp h with rfl | h
      · simp
      · exact (hn.1 (hb ▸ List.mem_map_of_mem h)).elim
    · rcases List.mem_cons.mp h with rfl | h
      · exact (hb rfl).elim
      · simp only [List.find?_cons, hb, decide_false]
        exact find_unique f hn.2 h

theorem find_mem {α : Type} {f : α → Nat} {as : List α} {n : Nat} {a : α}
    (h : as.find? (fun x => decide (f x = n)) = some a) : a ∈ as ∧ f a = n :=
  ⟨List.mem_of_find?_eq_some h, by simpa using List.find?_some h⟩

theorem find_absent {α : Type} {f : α → Nat} {as : List α} {n : Nat}
    (h : n ∉ as.map f) : as.find? (fun x => decide (f x = n)) = none := by
  rw [List.find?_eq_none]
  intro x hx hp
  exact h (by simpa using ⟨x, hx, by simpa using hp⟩)

theorem checkAssoc_lookup {T : TraitDecl} (hT : (T.assoc.map (·.name)).Nodup)
    (hI : (T.assoc.map (·.ident)).Nodup) (n : Nat) :
    ∀ {as : List Assoc} {acc r : List (Nat × Nat)}, (as.map (·.ident)).Nodup →
    checkAssoc T as acc = some r →
    r.lookup n = (match T.assoc.find? (·.name = n) with
      | none => acc.lookup n
      | some t => match as.find? (·.ident = t.ident) with
        | none => acc.lookup n
        | some c => some c.name)
  | [], acc, r, _, h => by
    simp only [checkAssoc, Option.some.injEq] at h
    subst h
    cases T.assoc.find? (·.name = n) <;> rfl
  | a :: as, acc, r, hn, h => by
    rw [List.map_cons, List.nodup_cons] at hn
    simp only [checkAssoc] at h
    split at h
    · cases h
    · rename_i t' ht'
      split at h
      · have ih := checkAssoc_lookup hT hI n hn.2 h
        rw [ih]
        obtain ⟨hm', hid'⟩ := find_mem (f := Assoc.ident) ht'
        cases ht : T.assoc.find? (·.name = n) with
        | none =>
          have hne : n ≠ t'.name := fun e => by
            have := find_unique Assoc.name hT hm'
            rw [← e, ht] at this
            cases this
          simp only [List.lookup_cons, beq_eq_false_iff_ne.mpr hne]
        | some t =>
          obtain ⟨hmt, hnt⟩ := find_mem (f := Assoc.name) ht
          by_cases hne : n = t'.name
          · have hu := find_unique Assoc.name hT hm'
            rw [← hne, ht] at hu
            injection hu with hu
            subst hu
            have hf : as.find? (·.ident = a.ident) = none :=
              find_absent (f := Assoc.ident) hn.1
            simp only [hid', hf, List.lookup_cons, hne, beq_self_eq_true, List.find?_cons,
              decide_true]
          · have hne' : a.ident ≠ t.ident := fun e => by
              have hu := find_unique Assoc.ident hI hmt
              rw [← e, ht'] at hu
              injection hu with hu
              exact hne (by rw [hu, hnt])
            simp only [List.find?_cons, hne', decide_false, List.lookup_cons,
              beq_eq_false_iff_ne.mpr hne]
      · cases h

/-- The renaming the compiler builds is the one that takes the trait's associated
types to the impl's. -/
theorem remap_assocName {T : TraitDecl} {b : Block} (h : Scoped T b) {r : List (Nat × Nat)}
    (hr : checkAssoc T b.assoc [] = some r) (n : Nat) :
    (r.lookup n).getD n = assocName T b n := by
  rw [checkAssoc_lookup h.names h.idents.1 n h.idents.2 hr]
  unfold assocName
  cases T.assoc.find? (·.name = n) with
  | none => rfl
  | some t => dsimp only; cases b.assoc.find? (·.ident = t.ident) <;> rfl

end Spade.Trait
