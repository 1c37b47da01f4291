import Verif.Mir.RenameProps
/-!
# Identifiers of the generated module (C14)
-/
namespace Spade.Mir
variable {Op Ty C Ini : Type}

/-! ## Specification

The identifiers of a module are of two kinds: those the user chose and those the compiler makes up by
appending something to a name. -/

/-- Text of a named signal. -/
def Name.text? : Name → Option String
  | .named _ s => some s
  | .expr _ => none

/-- Names chosen by the user: the texts of all signals. -/
def userNames (e : Entity Op Ty C Ini) : List String :=
  (e.inputNames ++ e.defs).filterMap Name.text?

/-- The identifier of a signal, unless it is just the text. -/
def madeUp : Name → List (List Char)
  | .named i s => if i = 0 ∧ s ≠ "new" then [] else [s.toList ++ "_n".toList ++ digits i]
  | .expr i => ["_e_".toList ++ digits i]

/-- Identifiers made up by the compiler for a unit: numbered signals and expressions, backward
wires, ports and instances. -/
def reserved (X : NameCtx Op Ty) (e : Entity Op Ty C Ini) : List (List Char) :=
  (e.inputNames ++ e.defs).flatMap madeUp ++
  (e.inputNames ++ e.defs).map bwdName ++
  e.inputs.map (fun i => i.name.toList ++ "_i".toList) ++
  e.inputs.map (fun i => i.name.toList ++ "_o".toList) ++
  ["output__".toList, "input__".toList] ++
  instanceNames [] (requested X e.stmts)

/-! ## Identifiers as text with a suffix -/

/-- An identifier: plain, or a text, an underscore and a suffix without underscores. -/
inductive Ident where
  | user (s : String)
  | gen (t seg : List Char)

def Ident.chars : Ident → List Char
  | .user s => s.toList
  | .gen t seg => t ++ '_' :: seg

def Ident.Ok : Ident → Prop
  | .user _ => True
  | .gen _ seg => '_' ∉ seg

theorem split_unique : ∀ {a b x y : List Char}, '_' ∉ x → '_' ∉ y →
    a ++ '_' :: x = b ++ '_' :: y → a = b ∧ x = y
  | [], [], _, _, _, _, h => ⟨rfl, by simpa using h⟩
  | [], c :: b, x, y, hx, _, h => by
    simp only [List.nil_append, List.cons_append, List.cons.injEq] at h
    rw [h.2] at hx; simp at hx
  | c :: a, [], x, y, _, hy, h => by
    simp only [List.nil_append, List.cons_append, List.cons.injEq] at h
    rw [← h.2] at hy; simp at hy
  | c :: a, d :: b, x, y, hx, hy, h => by
    simp only [List.cons_append, List.cons.injEq] at h
    obtain ⟨h1, h2⟩ := split_unique hx hy h.2
    exact ⟨by rw [h.1, h1], h2⟩

theorem underscore_digits (n : Nat) : '_' ∉ digits n := by
  rw [digits, Nat.toList_repr]; exact Nat.underscore_not_in_toDigits

theorem digits_inj {m n : Nat} (h : digits m = digits n) : m = n := by
  unfold digits at h
  rw [Nat.toList_repr, Nat.toList_repr] at h
  have := congrArg (fun l => Nat.ofDigitChars 10 l 0) h
  simpa [Nat.ofDigitChars_ten_toDigits] using this

theorem isDigit_digits {n : Nat} {c : Char} (h : c ∈ digits n) : c.isDigit := by
  rw [digits, Nat.toList_repr] at h
  exact Nat.isDigit_of_mem_toDigits (by omega) (by omega) h

theorem digits_ne_nil (n : Nat) : digits n ≠ [] := by
  rw [digits, Nat.toList_repr]; exact Nat.toDigits_ne_nil

/-- `fwdName` as an identifier. -/
def identFwd : Name → Ident
  | .named i s => if i = 0 ∧ s ≠ "new" then .user s else .gen s.toList ('n' :: digits i)
  | .expr i => .gen "_e".toList (digits i)

/-- A name without the backward suffix. -/
def core : Name → Ident
  | .named i s => if i = 0 then .user s else .gen s.toList ('n' :: digits i)
  | .expr i => .gen "_e".toList (digits i)

def identBwd (n : Name) : Ident := .gen (core n).chars "mut".toList

theorem chars_identFwd (n : Name) : (identFwd n).chars = fwdName n := by
  cases n with
  | named i s =>
    simp only [identFwd, fwdName]
    split <;> simp [Ident.chars]
  | expr i => simp [identFwd, fwdName, Ident.chars]

theorem chars_identBwd (n : Name) : (identBwd n).chars = bwdName n := by
  cases n with
  | named i s =>
    simp only [identBwd, core, bwdName]
    split <;> simp [Ident.chars]
  | expr i => simp [identBwd, core, bwdName, Ident.chars]

theorem ok_identFwd (n : Name) : (identFwd n).Ok := by
  cases n with
  | named i s =>
    simp only [identFwd]
    split
    · trivial
    · simp [Ident.Ok, underscore_digits]
  | expr i => exact underscore_digits i

theorem ok_core (n : Name) : (core n).Ok := by
  cases n with
  | named i s =>
    simp only [core]
    split
    · trivial
    · simp [Ident.Ok, underscore_digits]
  | expr i => exact underscore_digits i

theorem n_not_digits {i k : Nat} : 'n' :: digits i ≠ digits k := by
  intro h
  have : Char.isDigit 'n' = true := isDigit_digits (n := k) (by rw [← h]; simp)
  revert this; decide

theorem identFwd_inj {m n : Name} (h : identFwd m = identFwd n) : m = n := by
  cases m with
  | named i s =>
    cases n with
    | named j t =>
      simp only [identFwd] at h
      split at h <;> split at h
      · rename_i h1 h2; cases h; rw [h1.1, h2.1]
      · cases h
      · cases h
      · simp only [Ident.gen.injEq, List.cons.injEq, true_and] at h
        rw [String.toList_inj.1 h.1, digits_inj h.2]
    | expr j =>
      simp only [identFwd] at h
      split at h
      · cases h
      · simp only [Ident.gen.injEq] at h
        exact (n_not_digits h.2).elim
  | expr i =>
    cases n with
    | named j t =>
      simp only [identFwd] at h
      split at h
      · cases h
      · simp only [Ident.gen.injEq] at h
        exact (n_not_digits h.2.symm).elim
    | expr j =>
      simp only [identFwd, Ident.gen.injEq] at h
      rw [digits_inj h.2]

theorem core_inj {m n : Name} (h : core m = core n) : m = n := by
  cases m with
  | named i s =>
    cases n with
    | named j t =>
      simp only [core] at h
      split at h <;> split at h
      · rename_i h1 h2; cases h; rw [h1, h2]
      · cases h
      · cases h
      · simp only [Ident.gen.injEq, List.cons.injEq, true_and] at h
        rw [String.toList_inj.1 h.1, digits_inj h.2]
    | expr j =>
      simp only [core] at h
      split at h
      · cases h
      · simp only [Ident.gen.injEq] at h
        exact (n_not_digits h.2).elim
  | expr i =>
    cases n with
    | named j t =>
      simp only [core] at h
      split at h
      · cases h
      · simp only [Ident.gen.injEq] at h
        exact (n_not_digits h.2.symm).elim
    | expr j =>
      simp only [core, Ident.gen.injEq] at h
      rw [digits_inj h.2]

/-! ## Instances -/

theorem useName_spec : ∀ (m : List (String × Nat)) (s : String),
    (useName m s).2 = (m.lookup s).getD 0 ∧
    ∀ t, ((useName m s).1.lookup t).getD 0 = (m.lookup t).getD 0 + if t = s then 1 else 0
  | [], s => by
    refine ⟨rfl, fun t => ?_⟩
    by_cases h : t = s
    · simp [useName, List.lookup, h]
    · have : (t == s) = false := by simpa using h
      simp [useName, List.lookup, this, h]
  | (u, k) :: m, s => by
    obtain ⟨h1, h2⟩ := useName_spec m s
    simp only [useName]
    by_cases h : u = s
    · subst h
      refine ⟨by simp [List.lookup], fun t => ?_⟩
      by_cases ht : t = u
      · simp [List.lookup, ht]
      · have : (t == u) = false := by simpa using ht
        simp [List.lookup, this, ht]
    · have hs : (s == u) = false := by simpa using Ne.symm h
      simp only [h, if_false]
      refine ⟨by simp [List.lookup, hs, h1], fun t => ?_⟩
      by_cases ht : t = u
      · subst ht; simp [List.lookup, h]
      · have : (t == u) = false := by simpa using ht
        simp [List.lookup, this, h2]

/-- The instances as identifiers. -/
def instanceIdents : List (String × Nat) → List String → List Ident
  | _, [] => []
  | m, s :: ss => .gen s.toList (digits (useName m s).2) :: instanceIdents (useName m s).1 ss

theorem chars_instanceIdents : ∀ (m : List (String × Nat)) (ss : List String),
    (instanceIdents m ss).map Ident.chars = instanceNames m ss
  | _, [] => rfl
  | m, s :: ss => by simp [instanceIdents, instanceNames, Ident.chars, chars_instanceIdents]

theorem instanceIdents_mem : ∀ (m : List (String × Nat)) (ss : List String),
    ∀ x ∈ instanceIdents m ss, ∃ s ∈ ss, ∃ k, (m.lookup s).getD 0 ≤ k ∧ x = .gen s.toList (digits k)
  | _, [], x, h => by cases h
  | m, s :: ss, x, h => by
    obtain ⟨h1, h2⟩ := useName_spec m s
    rcases List.mem_cons.1 h with rfl | h
    · exact ⟨s, by simp, _, by rw [h1]; exact Nat.le_refl _, rfl⟩
    · obtain ⟨t, ht, k, hk, rfl⟩ := instanceIdents_mem _ ss x h
      refine ⟨t, List.mem_cons_of_mem _ ht, k, ?_, rfl⟩
      rw [h2] at hk; omega

theorem instanceIdents_nodup : ∀ (m : List (String × Nat)) (ss : List String),
    (instanceIdents m ss).Nodup
  | _, [] => by simp [instanceIdents]
  | m, s :: ss => by
    rw [instanceIdents, List.nodup_cons]
    refine ⟨fun h => ?_, instanceIdents_nodup _ ss⟩
    obtain ⟨h1, h2⟩ := useName_spec m s
    obtain ⟨t, ht, k, hk, he⟩ := instanceIdents_mem _ ss _ h
    simp only [Ident.gen.injEq] at he
    rw [h2] at hk
    have := String.toList_inj.1 he.1
    subst this
    rw [← digits_inj he.2, h1] at hk
    simp at hk
    omega

/-- **C14.** Two instances in a module never get the same name, whatever units are instantiated. -/
theorem C14_instances (ss : List String) : (instanceNames [] ss).Nodup := by
  rw [← chars_instanceIdents]
  refine nodup_map_on (instanceIdents_nodup _ _) fun x hx y hy h => ?_
  obtain ⟨s, _, k, _, rfl⟩ := instanceIdents_mem _ _ x hx
  obtain ⟨t, _, l, _, rfl⟩ := instanceIdents_mem _ _ y hy
  obtain ⟨h1, h2⟩ := split_unique (underscore_digits k) (underscore_digits l) h
  rw [h1, h2]

example : (instanceNames [] ["a", "a_0", "a"]) = ["a_0".toList, "a_0_0".toList, "a_1".toList] := by
  decide

/-! ## A whole module -/

/-- What an identifier is for. -/
inductive Role where
  | fwd (n : Name) | bwd (n : Name) | pin (s : String) | pout (s : String)
  | out | inp | inst (s : String) (k : Nat)

def Role.ident : Role → Ident
  | .fwd n => identFwd n
  | .bwd n => identBwd n
  | .pin s => .gen s.toList ['i']
  | .pout s => .gen s.toList ['o']
  | .out => .gen "output_".toList []
  | .inp => .gen "input_".toList []
  | .inst s k => .gen s.toList (digits k)

def inputRoles (X : NameCtx Op Ty) (i : Input Ty) : List Role :=
  (if X.fwd i.ty ≠ 0 then
    (if i.noMangle then [.fwd i.valName] else [.pin i.name, .fwd i.valName]) else []) ++
  (if X.bwd i.ty ≠ 0 then
    [if i.noMangle then .fwd i.valName else .pout i.name, .bwd i.valName] else [])

def stmtRoles (X : NameCtx Op Ty) : Stmt Op Ty C Ini → List Role
  | .binding b =>
    (if X.fwd b.ty ≠ 0 then [.fwd b.name] else []) ++ (if X.bwd b.ty ≠ 0 then [.bwd b.name] else [])
  | .register r => if X.fwd r.ty ≠ 0 then [.fwd r.name] else []
  | .constant n t _ => if X.fwd t ≠ 0 then [.fwd n] else []
  | _ => []

def instanceRoles : List (String × Nat) → List String → List Role
  | _, [] => []
  | m, s :: ss => .inst s (useName m s).2 :: instanceRoles (useName m s).1 ss

def moduleRoles (X : NameCtx Op Ty) (e : Entity Op Ty C Ini) : List Role :=
  e.inputs.flatMap (inputRoles X) ++ (e.stmts.flatMap (stmtRoles X) ++
  ((if X.fwd e.outputTy ≠ 0 then [.out] else []) ++
  ((if X.bwd e.outputTy ≠ 0 then [.inp] else []) ++
  instanceRoles [] (requested X e.stmts))))

theorem ident_instanceRoles : ∀ (m : List (String × Nat)) (ss : List String),
    (instanceRoles m ss).map Role.ident = instanceIdents m ss
  | _, [] => rfl
  | m, s :: ss => by simp [instanceIdents, instanceRoles, Role.ident, ident_instanceRoles]

/-- An input as it is after renaming. -/
structure InputOk (X : NameCtx Op Ty) (i : Input Ty) : Prop where
  text : i.valName = .named 0 i.name
  mixed : i.noMangle = true → X.fwd i.ty = 0 ∨ X.bwd i.ty = 0
  new : i.noMangle = true → i.name ≠ "new"

theorem chars_moduleRoles (X : NameCtx Op Ty) (e : Entity Op Ty C Ini)
    (hi : ∀ i ∈ e.inputs, InputOk X i) :
    (moduleRoles X e).map (fun r => r.ident.chars) = declared X e := by
  have h1 : ∀ i ∈ e.inputs, (inputRoles X i).map (fun r => r.ident.chars) = inputDecls X i := by
    intro i hi'
    have ok := hi i hi'
    simp only [inputRoles, inputDecls, List.map_append]
    have huser : i.noMangle = true → fwdName i.valName = i.name.toList := by
      intro h; simp [ok.text, fwdName, ok.new h]
    congr 1
    · split
      · cases h : i.noMangle
        · simp [mangleInput, Role.ident, Ident.chars.eq_2, chars_identFwd]
        · simp [mangleInput, Role.ident, chars_identFwd, huser h]
      · rfl
    · split
      · cases h : i.noMangle
        · simp [mangleOutput, Role.ident, Ident.chars.eq_2, chars_identBwd]
        · simp [mangleOutput, Role.ident, chars_identBwd, chars_identFwd, huser h]
      · rfl
  have h2 : ∀ s : Stmt Op Ty C Ini,
      (stmtRoles X s).map (fun r => r.ident.chars) = stmtDecls X s := by
    intro s
    cases s with
    | binding b =>
      simp only [stmtRoles, stmtDecls, List.map_append]
      congr 1
      · split <;> simp [chars_identFwd, Role.ident]
      · split <;> simp [chars_identBwd, Role.ident]
    | register r => simp only [stmtRoles, stmtDecls]; split <;> simp [chars_identFwd, Role.ident]
    | constant n t c => simp only [stmtRoles, stmtDecls]; split <;> simp [chars_identFwd, Role.ident]
    | _ => rfl
  have h3 : (instanceRoles [] (requested X e.stmts)).map (fun r => r.ident.chars) =
      instanceNames [] (requested X e.stmts) := by
    rw [← chars_instanceIdents, ← ident_instanceRoles, List.map_map]; rfl
  have h4 : (e.inputs.flatMap (inputRoles X)).map (fun r => r.ident.chars) =
      e.inputs.flatMap (inputDecls X) := by
    rw [List.map_flatMap, List.flatMap_def, List.flatMap_def, List.map_congr_left h1]
  simp only [moduleRoles, declared, List.map_append, h4, List.map_flatMap, h2, h3,
    List.append_assoc]
  congr 3
  · split <;> simp [Ident.chars, Role.ident]
  · congr 1
    split <;> simp [Ident.chars, Role.ident]

/-- Every role of a module belongs to one of its signals, inputs or instances. -/
theorem mem_moduleRoles {X : NameCtx Op Ty} {e : Entity Op Ty C Ini} {r : Role}
    (h : r ∈ moduleRoles X e) :
    (∃ n ∈ e.inputNames ++ e.defs, r = .fwd n ∨ r = .bwd n) ∨
    (∃ i ∈ e.inputs, r = .pin i.name ∨ r = .pout i.name) ∨
    r = .out ∨ r = .inp ∨
    ∃ s k, s ∈ requested X e.stmts ∧ r = .inst s k ∧ r ∈ instanceRoles [] (requested X e.stmts) := by
  simp only [moduleRoles, List.mem_append, List.mem_flatMap] at h
  rcases h with ⟨i, hi, h⟩ | ⟨s, hs, h⟩ | h | h | h
  · have hn : i.valName ∈ e.inputNames ++ e.defs :=
      List.mem_append_left _ (List.mem_map.2 ⟨i, hi, rfl⟩)
    simp only [inputRoles, List.mem_append] at h
    rcases h with h | h <;> split at h
    · cases hm : i.noMangle <;> simp [hm] at h
      · rcases h with rfl | rfl
        · exact Or.inr (Or.inl ⟨i, hi, Or.inl rfl⟩)
        · exact Or.inl ⟨_, hn, Or.inl rfl⟩
      · exact Or.inl ⟨_, hn, Or.inl h⟩
    · cases h
    · cases hm : i.noMangle <;> simp [hm] at h
      · rcases h with rfl | rfl
        · exact Or.inr (Or.inl ⟨i, hi, Or.inr rfl⟩)
        · exact Or.inl ⟨_, hn, Or.inr rfl⟩
      · exact Or.inl ⟨_, hn, h⟩
    · cases h
  · have hd : ∀ n, s.defines = some n → n ∈ e.inputNames ++ e.defs := fun n hn =>
      List.mem_append_right _ (List.mem_filterMap.2 ⟨s, hs, hn⟩)
    left
    cases s with
    | binding b =>
      simp only [stmtRoles, List.mem_append] at h
      rcases h with h | h <;> split at h <;> simp at h
      · exact ⟨_, hd _ rfl, Or.inl h⟩
      · exact ⟨_, hd _ rfl, Or.inr h⟩
    | register r => simp only [stmtRoles] at h; split at h <;> simp at h; exact ⟨_, hd _ rfl, Or.inl h⟩
    | constant n t c =>
      simp only [stmtRoles] at h; split at h <;> simp at h; exact ⟨_, hd _ rfl, Or.inl h⟩
    | assert n => simp [stmtRoles] at h
    | set t x => simp [stmtRoles] at h
    | error => simp [stmtRoles] at h
  · split at h <;> simp at h
    exact Or.inr (Or.inr (Or.inl h))
  · split at h <;> simp at h
    exact Or.inr (Or.inr (Or.inr (Or.inl h)))
  · right; right; right; right
    have : ∀ (m : List (String × Nat)) (ss : List String), r ∈ instanceRoles m ss →
        ∃ s k, s ∈ ss ∧ r = .inst s k := by
      intro m ss
      induction ss generalizing m with
      | nil => intro h; cases h
      | cons a ss ih =>
        intro h
        rcases List.mem_cons.1 h with rfl | h
        · exact ⟨a, _, by simp, rfl⟩
        · obtain ⟨s, k, h1, h2⟩ := ih _ h
          exact ⟨s, k, List.mem_cons_of_mem _ h1, h2⟩
    obtain ⟨s, k, h1, h2⟩ := this _ _ h
    exact ⟨s, k, h1, h2, h⟩

theorem moduleRoles_nodup {X : NameCtx Op Ty} {e : Entity Op Ty C Ini} (hw : e.WellNamed)
    (hi : ∀ i ∈ e.inputs, InputOk X i) : (moduleRoles X e).Nodup := by
  have hin : ∀ i ∈ e.inputs, ∀ r ∈ inputRoles X i, r = .fwd i.valName ∨ r = .bwd i.valName ∨
      r = .pin i.name ∨ r = .pout i.name := by
    intro i _ r h
    simp only [inputRoles, List.mem_append] at h
    rcases h with h | h <;> split at h
    · cases hm : i.noMangle <;> simp [hm] at h
      · rcases h with rfl | rfl <;> simp
      · simp [h]
    · cases h
    · cases hm : i.noMangle <;> simp [hm] at h
      · rcases h with rfl | rfl <;> simp
      · rcases h with rfl | rfl <;> simp
    · cases h
  have hst : ∀ s : Stmt Op Ty C Ini, ∀ r ∈ stmtRoles X s, ∃ n, s.defines = some n ∧
      (r = .fwd n ∨ r = .bwd n) := by
    intro s r h
    cases s with
    | binding b =>
      simp only [stmtRoles, List.mem_append] at h
      rcases h with h | h <;> split at h <;> simp at h
      · exact ⟨_, rfl, Or.inl h⟩
      · exact ⟨_, rfl, Or.inr h⟩
    | register r => simp only [stmtRoles] at h; split at h <;> simp at h; exact ⟨_, rfl, Or.inl h⟩
    | constant n t c => simp only [stmtRoles] at h; split at h <;> simp at h; exact ⟨_, rfl, Or.inl h⟩
    | assert n => simp [stmtRoles] at h
    | set t x => simp [stmtRoles] at h
    | error => simp [stmtRoles] at h
  have hinst : ∀ (m : List (String × Nat)) (ss : List String), ∀ r ∈ instanceRoles m ss,
      ∃ s k, r = .inst s k := by
    intro m ss
    induction ss generalizing m with
    | nil => intro r h; cases h
    | cons a ss ih =>
      intro r h
      rcases List.mem_cons.1 h with rfl | h
      · exact ⟨a, _, rfl⟩
      · exact ih _ r h
  have n1 : (e.inputs.flatMap (inputRoles X)).Nodup := by
    rw [List.Nodup, List.pairwise_flatMap]
    refine ⟨fun i hi' => ?_, ?_⟩
    · have := (hi i hi').mixed
      simp only [inputRoles]
      cases hm : i.noMangle <;> by_cases hf : X.fwd i.ty = 0 <;> by_cases hb : X.bwd i.ty = 0 <;>
        simp_all
    · have := hw.1
      rw [Entity.inputNames, List.Nodup, List.pairwise_map] at this
      refine List.Pairwise.imp_of_mem ?_ this
      intro i j hi' hj' hne r hr q hq
      have hne' : i.name ≠ j.name := by
        intro h; apply hne; rw [(hi i hi').text, (hi j hj').text, h]
      rcases hin i hi' r hr with rfl | rfl | rfl | rfl <;>
        rcases hin j hj' q hq with rfl | rfl | rfl | rfl <;> simp [hne, hne']
  have n2 : (e.stmts.flatMap (stmtRoles X)).Nodup := by
    rw [List.Nodup, List.pairwise_flatMap]
    refine ⟨fun s _ => ?_, ?_⟩
    · cases s with
      | binding b =>
        simp only [stmtRoles]
        by_cases hf : X.fwd b.ty = 0 <;> by_cases hb : X.bwd b.ty = 0 <;> simp [hf, hb]
      | register r => simp only [stmtRoles]; split <;> simp
      | constant n t c => simp only [stmtRoles]; split <;> simp
      | _ => simp [stmtRoles]
    · have := hw.2.1
      rw [Entity.defs, List.Nodup, List.pairwise_filterMap] at this
      refine this.imp ?_
      intro s t h r hr q hq
      obtain ⟨n, hn, hr⟩ := hst s r hr
      obtain ⟨m, hm, hq⟩ := hst t q hq
      have := h n hn m hm
      rcases hr with rfl | rfl <;> rcases hq with rfl | rfl <;> simp [this]
  have n5 : (instanceRoles [] (requested X e.stmts)).Nodup := by
    have := instanceIdents_nodup [] (requested X e.stmts)
    rw [← ident_instanceRoles] at this
    exact List.Pairwise.of_map _ (fun a b h h' => h (by rw [h'])) this
  rw [moduleRoles, List.nodup_append]
  refine ⟨n1, ?_, ?_⟩
  · rw [List.nodup_append]
    refine ⟨n2, ?_, ?_⟩
    · rw [List.nodup_append]
      refine ⟨by split <;> simp, ?_, ?_⟩
      · rw [List.nodup_append]
        refine ⟨by split <;> simp, n5, ?_⟩
        intro a ha b hb
        obtain ⟨s, k, rfl⟩ := hinst _ _ b hb
        split at ha <;> simp at ha
        simp [ha]
      · intro a ha b hb
        split at ha <;> simp at ha
        subst ha
        rcases List.mem_append.1 hb with hb | hb
        · split at hb <;> simp at hb; simp [hb]
        · obtain ⟨s, k, rfl⟩ := hinst _ _ b hb; simp
    · intro a ha b hb
      obtain ⟨s, _, ha⟩ := List.mem_flatMap.1 ha
      obtain ⟨n, _, ha⟩ := hst s a ha
      rcases List.mem_append.1 hb with hb | hb
      · split at hb <;> simp at hb; rcases ha with rfl | rfl <;> simp [hb]
      rcases List.mem_append.1 hb with hb | hb
      · split at hb <;> simp at hb; rcases ha with rfl | rfl <;> simp [hb]
      · obtain ⟨s, k, rfl⟩ := hinst _ _ b hb; rcases ha with rfl | rfl <;> simp
  · intro a ha b hb
    obtain ⟨i, hi', ha⟩ := List.mem_flatMap.1 ha
    have ha := hin i hi' a ha
    rcases List.mem_append.1 hb with hb | hb
    · obtain ⟨s, hs, hb⟩ := List.mem_flatMap.1 hb
      obtain ⟨n, hn, hb⟩ := hst s b hb
      have hne : i.valName ≠ n := fun h => hw.2.2 i.valName (List.mem_map.2 ⟨i, hi', rfl⟩)
        (List.mem_filterMap.2 ⟨s, hs, by rw [hn, h]⟩)
      rcases ha with rfl | rfl | rfl | rfl <;> rcases hb with rfl | rfl <;> simp [hne]
    rcases List.mem_append.1 hb with hb | hb
    · split at hb <;> simp at hb; rcases ha with rfl | rfl | rfl | rfl <;> simp [hb]
    rcases List.mem_append.1 hb with hb | hb
    · split at hb <;> simp at hb; rcases ha with rfl | rfl | rfl | rfl <;> simp [hb]
    · obtain ⟨s, k, rfl⟩ := hinst _ _ b hb; rcases ha with rfl | rfl | rfl | rfl <;> simp

/-- The identifiers the user chose are kept apart from the ones made up by the compiler. -/
def NoClash (X : NameCtx Op Ty) (e : Entity Op Ty C Ini) : Prop :=
  ∀ s ∈ userNames e, s.toList ∉ reserved X e

theorem Ident.chars_inj {a b : Ident} (ha : a.Ok) (hb : b.Ok) (h : a.chars = b.chars)
    (hno : ∀ s t seg, (a = .user s ∧ b = .gen t seg) ∨ (b = .user s ∧ a = .gen t seg) →
      s.toList ≠ t ++ '_' :: seg) : a = b := by
  cases a with
  | user s =>
    cases b with
    | user t => rw [String.toList_inj.1 h]
    | gen t seg => exact (hno s t seg (Or.inl ⟨rfl, rfl⟩) h).elim
  | gen t seg =>
    cases b with
    | user s => exact (hno s t seg (Or.inr ⟨rfl, rfl⟩) h.symm).elim
    | gen t' seg' =>
      obtain ⟨h1, h2⟩ := split_unique ha hb h
      rw [h1, h2]

theorem Role.ok (r : Role) : r.ident.Ok := by
  cases r with
  | fwd n => exact ok_identFwd n
  | bwd n => simp [Role.ident, identBwd, Ident.Ok]
  | inst s k => exact underscore_digits k
  | _ => simp [Role.ident, Ident.Ok]

theorem mem_userNames {e : Entity Op Ty C Ini} {i : Nat} {s : String}
    (h : .named i s ∈ e.inputNames ++ e.defs) : s ∈ userNames e :=
  List.mem_filterMap.2 ⟨_, h, rfl⟩

theorem user_of_fwd {n : Name} {s : String} (h : identFwd n = .user s) : n = .named 0 s := by
  cases n with
  | named i t =>
    simp only [identFwd] at h
    split at h
    · rename_i h1; cases h; rw [h1.1]
    · cases h
  | expr i => cases h

theorem user_of_core {n : Name} {s : String} (h : core n = .user s) : n = .named 0 s := by
  cases n with
  | named i t =>
    simp only [core] at h
    split at h
    · rename_i h1; cases h; rw [h1]
    · cases h
  | expr i => cases h

theorem madeUp_of_fwd {n : Name} {t seg : List Char} (h : identFwd n = .gen t seg) :
    t ++ '_' :: seg ∈ madeUp n := by
  cases n with
  | named i s =>
    simp only [identFwd] at h
    split at h
    · cases h
    · rename_i h1
      simp only [Ident.gen.injEq] at h
      simp [madeUp, h1, ← h.1, ← h.2]
  | expr i =>
    simp only [identFwd, Ident.gen.injEq] at h
    simp [madeUp, ← h.1, ← h.2]

theorem madeUp_of_core {n : Name} {t seg : List Char} (h : core n = .gen t seg) :
    t ++ '_' :: seg ∈ madeUp n := by
  cases n with
  | named i s =>
    simp only [core] at h
    split at h
    · cases h
    · rename_i h1
      simp only [Ident.gen.injEq] at h
      simp [madeUp, h1, ← h.1, ← h.2]
  | expr i =>
    simp only [core, Ident.gen.injEq] at h
    simp [madeUp, ← h.1, ← h.2]

theorem role_user {X : NameCtx Op Ty} {e : Entity Op Ty C Ini} {r : Role} (hr : r ∈ moduleRoles X e)
    {s : String} (h : r.ident = .user s) : s ∈ userNames e := by
  rcases mem_moduleRoles hr with ⟨n, hn, rfl | rfl⟩ | ⟨i, hi, rfl | rfl⟩ | rfl | rfl | ⟨u, k, _, rfl, _⟩
  · rw [user_of_fwd h] at hn; exact mem_userNames hn
  all_goals cases h

theorem role_gen {X : NameCtx Op Ty} {e : Entity Op Ty C Ini} {r : Role} (hr : r ∈ moduleRoles X e)
    {t seg : List Char} (h : r.ident = .gen t seg) : t ++ '_' :: seg ∈ reserved X e := by
  simp only [reserved, List.mem_append]
  rcases mem_moduleRoles hr with ⟨n, hn, rfl | rfl⟩ | ⟨i, hi, rfl | rfl⟩ | rfl | rfl | ⟨u, k, _, rfl, hk⟩
  · exact Or.inl (Or.inl (Or.inl (Or.inl (Or.inl (List.mem_flatMap.2 ⟨n, hn, madeUp_of_fwd h⟩)))))
  · refine Or.inl (Or.inl (Or.inl (Or.inl (Or.inr (List.mem_map.2 ⟨n, hn, ?_⟩)))))
    rw [← chars_identBwd]
    have : identBwd n = .gen t seg := h
    rw [this]; rfl
  · refine Or.inl (Or.inl (Or.inl (Or.inr (List.mem_map.2 ⟨i, hi, ?_⟩))))
    simp only [Role.ident, Ident.gen.injEq] at h
    simp [← h.1, ← h.2]
  · refine Or.inl (Or.inl (Or.inr (List.mem_map.2 ⟨i, hi, ?_⟩)))
    simp only [Role.ident, Ident.gen.injEq] at h
    simp [← h.1, ← h.2]
  · refine Or.inl (Or.inr ?_)
    simp only [Role.ident, Ident.gen.injEq] at h
    simp [← h.1, ← h.2]
  · refine Or.inl (Or.inr ?_)
    simp only [Role.ident, Ident.gen.injEq] at h
    simp [← h.1, ← h.2]
  · refine Or.inr ?_
    rw [← chars_instanceIdents, ← ident_instanceRoles]
    refine List.mem_map.2 ⟨_, List.mem_map.2 ⟨_, hk, h⟩, rfl⟩

theorem digits_ne_cons {k : Nat} {c : Char} {l : List Char} (h : c.isDigit = false) :
    digits k ≠ c :: l := by
  intro he
  have : c.isDigit = true := isDigit_digits (n := k) (by rw [he]; simp)
  rw [h] at this; cases this

set_option maxHeartbeats 2000000 in
theorem role_inj {X : NameCtx Op Ty} {e : Entity Op Ty C Ini} (hno : NoClash X e)
    (he : "_e" ∉ requested X e.stmts) {r q : Role} (hr : r ∈ moduleRoles X e)
    (hq : q ∈ moduleRoles X e) (h : r.ident.chars = q.ident.chars) : r = q := by
  have hid : r.ident = q.ident := by
    refine Ident.chars_inj r.ok q.ok h ?_
    rintro s t seg (⟨h1, h2⟩ | ⟨h1, h2⟩) heq
    · exact hno s (role_user hr h1) (by rw [heq]; exact role_gen hq h2)
    · exact hno s (role_user hq h1) (by rw [heq]; exact role_gen hr h2)
  clear h
  have hfwdBwd : ∀ n m, identFwd n ≠ identBwd m := by
    intro n m h
    cases n with
    | named i s =>
      simp only [identFwd, identBwd] at h
      split at h
      · cases h
      · simp at h
    | expr i =>
      simp only [identFwd, identBwd, Ident.gen.injEq] at h
      exact digits_ne_cons (c := 'm') (by decide) h.2
  have hfwdGen : ∀ n t seg, seg.all (fun c => !c.isDigit) = true → seg.head? ≠ some 'n' →
      identFwd n ≠ .gen t seg := by
    intro n t seg hs hs' h
    cases n with
    | named i s =>
      simp only [identFwd] at h
      split at h
      · cases h
      · simp only [Ident.gen.injEq] at h
        rw [← h.2] at hs'; simp at hs'
    | expr i =>
      simp only [identFwd, Ident.gen.injEq] at h
      cases hseg : seg with
      | nil => rw [hseg] at h; exact digits_ne_nil i h.2
      | cons c l =>
        rw [hseg] at h hs
        exact digits_ne_cons (by simpa using (List.all_eq_true.1 hs c (by simp))) h.2
  have hfwdInst : ∀ n u k, u ∈ requested X e.stmts → identFwd n ≠ .gen u.toList (digits k) := by
    intro n u k hu h
    cases n with
    | named i s =>
      simp only [identFwd] at h
      split at h
      · cases h
      · simp only [Ident.gen.injEq] at h
        exact n_not_digits h.2
    | expr i =>
      simp only [identFwd, Ident.gen.injEq] at h
      have : "_e" = u := String.toList_inj.1 h.1
      rw [← this] at hu; exact he hu
  rcases mem_moduleRoles hr with ⟨n, hn, rfl | rfl⟩ | ⟨i, hi, rfl | rfl⟩ | rfl | rfl | ⟨u, k, hu, rfl, hk⟩ <;>
  rcases mem_moduleRoles hq with ⟨m, hm, rfl | rfl⟩ | ⟨j, hj, rfl | rfl⟩ | rfl | rfl | ⟨w, l, hw, rfl, hl⟩ <;>
  simp only [Role.ident] at hid
  case inl.inl.inl.inl => rw [identFwd_inj hid]
  case inl.inr.inl.inr =>
    simp only [identBwd, Ident.gen.injEq, and_true] at hid
    have : core n = core m := by
      refine Ident.chars_inj (ok_core n) (ok_core m) hid ?_
      rintro s t seg (⟨h1, h2⟩ | ⟨h1, h2⟩) heq
      · rw [user_of_core h1] at hn
        refine hno s (mem_userNames hn) ?_
        rw [heq]
        simp only [reserved, List.mem_append]
        exact Or.inl (Or.inl (Or.inl (Or.inl (Or.inl (List.mem_flatMap.2 ⟨m, by simpa using hm, madeUp_of_core h2⟩)))))
      · rw [user_of_core h1] at hm
        refine hno s (mem_userNames hm) ?_
        rw [heq]
        simp only [reserved, List.mem_append]
        exact Or.inl (Or.inl (Or.inl (Or.inl (Or.inl (List.mem_flatMap.2 ⟨n, by simpa using hn, madeUp_of_core h2⟩)))))
    rw [core_inj this]
  all_goals first
    | rfl
    | exact (hfwdBwd _ _ hid).elim
    | exact (hfwdBwd _ _ hid.symm).elim
    | exact (hfwdInst _ _ _ (by assumption) hid).elim
    | exact (hfwdInst _ _ _ (by assumption) hid.symm).elim
    | exact (hfwdGen _ _ _ (by decide) (by decide) hid).elim
    | exact (hfwdGen _ _ _ (by decide) (by decide) hid.symm).elim
    | (simp [identBwd] at hid; done)
    | (simp only [identBwd, Ident.gen.injEq] at hid
       exact (digits_ne_cons (by decide) hid.2).elim)
    | (simp only [identBwd, Ident.gen.injEq] at hid
       exact (digits_ne_cons (by decide) hid.2.symm).elim)
    | (simp only [Ident.gen.injEq] at hid; exact (digits_ne_nil _ hid.2).elim)
    | (simp only [Ident.gen.injEq] at hid; exact (digits_ne_nil _ hid.2.symm).elim)
    | (simp only [Ident.gen.injEq] at hid
       first
        | rw [String.toList_inj.1 hid.1, digits_inj hid.2]
        | rw [String.toList_inj.1 hid.1])

theorem declared_nodup {X : NameCtx Op Ty} {e : Entity Op Ty C Ini} (hw : e.WellNamed)
    (hi : ∀ i ∈ e.inputs, InputOk X i) (hno : NoClash X e) (he : "_e" ∉ requested X e.stmts) :
    (declared X e).Nodup := by
  rw [← chars_moduleRoles X e hi]
  exact nodup_map_on (moduleRoles_nodup hw hi) fun r hr q hq h => role_inj hno he hr hq h

/-- What lowering guarantees about the inputs of a unit (spade-hir-lowering/src/lib.rs:3678-3726): the
port and the signal have the same text, the ports have different names and mangling is not switched
off for inputs with two directions.  The last condition is not checked: the special case for signals
called `new` does not cover ports. -/
structure InputsOk (X : NameCtx Op Ty) (e : Entity Op Ty C Ini) : Prop where
  text : ∀ i ∈ e.inputs, ∃ k, i.valName = .named k i.name
  distinct : (e.inputs.map (·.name)).Nodup
  mixed : ∀ i ∈ e.inputs, i.noMangle = true → X.fwd i.ty = 0 ∨ X.bwd i.ty = 0
  new : ∀ i ∈ e.inputs, i.noMangle = true → i.name ≠ "new"

theorem renamed_defs (f : Name → Name) (e : Entity Op Ty C Ini) :
    (e.renameAll f).inputNames = e.inputNames.map f ∧ (e.renameAll f).defs = e.defs.map f := by
  constructor
  · simp [Entity.renameAll, Entity.inputNames, List.map_map, Function.comp_def]
  · simp only [Entity.renameAll, Entity.defs, List.filterMap_map, List.map_filterMap]
    congr 1; funext s; simp [Stmt.defines_rename]

theorem predictable_wellNamed {e : Entity Op Ty C Ini} (hw : e.WellNamed) :
    (makeNamesPredictable e).WellNamed := by
  obtain ⟨h1, h2⟩ := renamed_defs (collectNames e).get e
  have hn : ((e.inputNames ++ e.defs).map (collectNames e).get).Nodup := by
    refine nodup_map_on hw.nodup fun x hx y hy h => ?_
    rw [collect_lookup hw.nodup, collect_lookup hw.nodup, if_pos hx, if_pos hy] at h
    exact predicted_inj hx hy h
  rw [List.map_append, ← h1, ← h2, List.nodup_append] at hn
  exact ⟨hn.1, hn.2.1, fun n hn1 hn2 => hn.2.2 n hn1 n hn2 rfl⟩

theorem occurrences_zero {s : String} : ∀ {l : List Name}, (∀ i, .named i s ∉ l) → occurrences s l = 0
  | [], _ => rfl
  | .expr i :: l, h => by
    rw [occurrences]; exact occurrences_zero fun j hj => h j (List.mem_cons_of_mem _ hj)
  | .named i t :: l, h => by
    have : t ≠ s := by rintro rfl; exact h i (by simp)
    rw [occurrences, occurrences_zero fun j hj => h j (List.mem_cons_of_mem _ hj)]
    simp [this]

theorem predictable_inputs {X : NameCtx Op Ty} {e : Entity Op Ty C Ini} (hw : e.WellNamed)
    (hi : InputsOk X e) : ∀ i ∈ (makeNamesPredictable e).inputs, InputOk X i := by
  intro i' hi'
  obtain ⟨i, hm, rfl⟩ := List.mem_map.1 hi'
  refine ⟨?_, hi.mixed i hm, hi.new i hm⟩
  simp only
  have hmem : i.valName ∈ e.inputNames ++ e.defs :=
    List.mem_append_left _ (List.mem_map.2 ⟨i, hm, rfl⟩)
  rw [collect_lookup hw.nodup, if_pos hmem]
  obtain ⟨k, hk⟩ := hi.text i hm
  rw [hk, predicted]
  congr 1
  refine occurrences_zero fun j hj => ?_
  -- the names before this input are names of other inputs
  obtain ⟨a, b, hab⟩ := List.append_of_mem hm
  have hin : e.inputNames = a.map (·.valName) ++ i.valName :: b.map (·.valName) := by
    rw [Entity.inputNames, hab]; simp
  have hsub : ∀ x ∈ (e.inputNames ++ e.defs).takeWhile (· ≠ .named k i.name), x ∈ a.map (·.valName) := by
    intro x hx
    rw [hin, List.append_assoc, List.cons_append, hk] at hx
    have : ∀ (p q : List Name) (y : Name), ∀ x ∈ (p ++ y :: q).takeWhile (· ≠ y), x ∈ p := by
      intro p
      induction p with
      | nil => intro q y x h; simp at h
      | cons c p ih =>
        intro q y x h
        simp only [List.cons_append, List.takeWhile_cons] at h
        split at h
        · rcases List.mem_cons.1 h with rfl | h
          · simp
          · exact List.mem_cons_of_mem _ (ih q y x h)
        · cases h
    exact this _ _ _ x hx
  obtain ⟨i2, hi2, he2⟩ := List.mem_map.1 (hsub _ hj)
  have hm2 : i2 ∈ e.inputs := by rw [hab]; exact List.mem_append_left _ hi2
  obtain ⟨k2, hk2⟩ := hi.text i2 hm2
  rw [hk2] at he2
  have hname : i2.name = i.name := by injection he2
  have hd := hi.distinct
  rw [hab, List.map_append, List.nodup_append] at hd
  exact hd.2.2 i2.name (List.mem_map.2 ⟨i2, hi2, rfl⟩) i.name (by simp) hname

/-- **C14 (partial).** In the generated module no identifier is declared twice: signals in both
directions, ports and instances all get different identifiers, for every unit in which no name chosen
by the user happens to be one that the compiler makes up (`reserved`), and no unit called `_e` is
instantiated.  Missing: the code does not check this condition, see the counterexamples. -/
theorem C14_verilog_partial (X : NameCtx Op Ty) (e : Entity Op Ty C Ini) (hw : e.WellNamed)
    (hi : InputsOk X e) (hno : NoClash X (makeNamesPredictable e)) (he : "_e" ∉ requested X e.stmts) :
    (declared X (makeNamesPredictable e)).Nodup := by
  refine declared_nodup (predictable_wellNamed hw) (predictable_inputs hw hi) hno ?_
  have : requested X (makeNamesPredictable e).stmts = requested X e.stmts := by
    unfold requested makeNamesPredictable Entity.renameAll
    rw [List.filterMap_map]
    congr 1
    funext s
    cases s with
    | binding b => rcases b with ⟨n, op, os, ty⟩; cases op <;> rfl
    | _ => rfl
  rw [this]; exact he

/-- Operators and types for the examples: an operator may instantiate a unit; types are widths. -/
def exampleCtx : NameCtx (Option String) Nat := ⟨fun w => w, fun _ => 0, id⟩

/-- `x` defined twice, an expression and an instance: the hypotheses are met. -/
example : let e : Entity (Option String) Nat Nat Nat :=
    { name := "t", inputs := [⟨"a", .named 4 "a", 8, false⟩, ⟨"b", .named 9 "b", 8, true⟩],
      output := .expr 2, outputTy := 8,
      stmts := [.binding ⟨.named 5 "x", .other none, [.named 4 "a"], 8⟩,
                .binding ⟨.named 6 "x", .other (some "sub"), [.named 5 "x"], 8⟩,
                .binding ⟨.expr 2, .other none, [.named 6 "x", .named 9 "b"], 8⟩] }
    e.WellNamed ∧ InputsOk exampleCtx e ∧ NoClash exampleCtx (makeNamesPredictable e) ∧
      declared exampleCtx (makeNamesPredictable e) =
        ["a_i", "a", "b", "x", "x_n1", "_e_2", "output__", "sub_0"].map String.toList := by
  refine ⟨?_, ⟨?_, by decide, by simp [exampleCtx], by simp⟩, ?_, by decide⟩
  · exact ⟨by decide, by decide, by decide⟩
  · intro i hi
    simp at hi
    rcases hi with rfl | rfl
    · exact ⟨4, rfl⟩
    · exact ⟨9, rfl⟩
  · unfold NoClash; decide

/-- **C14 fails** when a variable has the name of a numbered copy of another: the second of two
variables called `x` and a variable called `x_n1` become the same Verilog identifier. -/
theorem C14_counterexample_numbered : ∃ e : Entity (Option String) Nat Nat Nat,
    e.WellNamed ∧ e.Closed ∧ InputsOk exampleCtx e ∧
      ¬ (declared exampleCtx (makeNamesPredictable e)).Nodup := by
  refine ⟨{ name := "t", inputs := [⟨"a", .named 0 "a", 8, false⟩], output := .named 3 "x_n1",
            outputTy := 8,
            stmts := [.binding ⟨.named 1 "x", .other none, [.named 0 "a"], 8⟩,
                      .binding ⟨.named 2 "x", .other none, [.named 1 "x"], 8⟩,
                      .binding ⟨.named 3 "x_n1", .other none, [.named 2 "x"], 8⟩] },
    ⟨by decide, by decide, by decide⟩, ?_, ⟨?_, by decide, by simp, by simp⟩, by decide⟩
  · intro n hn
    simp [Entity.names, Stmt.names, Entity.inputNames, Entity.defs, Stmt.defines] at hn ⊢
    grind
  · intro i hi; simp at hi; subst hi; exact ⟨0, rfl⟩

/-- **C14 fails** when a variable has the name of a port: `x_i` is the port of an input `x`. -/
theorem C14_counterexample_port : ∃ e : Entity (Option String) Nat Nat Nat,
    e.WellNamed ∧ e.Closed ∧ InputsOk exampleCtx e ∧
      ¬ (declared exampleCtx (makeNamesPredictable e)).Nodup := by
  refine ⟨{ name := "t", inputs := [⟨"x", .named 0 "x", 8, false⟩], output := .named 1 "x_i",
            outputTy := 8,
            stmts := [.binding ⟨.named 1 "x_i", .other none, [.named 0 "x"], 8⟩] },
    ⟨by decide, by decide, by decide⟩, ?_, ⟨?_, by decide, by simp, by simp⟩, by decide⟩
  · intro n hn
    simp [Entity.names, Stmt.names, Entity.inputNames, Entity.defs, Stmt.defines] at hn ⊢
    grind
  · intro i hi; simp at hi; subst hi; exact ⟨0, rfl⟩

/-- **C14 fails** when a variable has the name of an instance: `sub_0` is the first instance of
`sub`. -/
theorem C14_counterexample_instance : ∃ e : Entity (Option String) Nat Nat Nat,
    e.WellNamed ∧ e.Closed ∧ InputsOk exampleCtx e ∧
      ¬ (declared exampleCtx (makeNamesPredictable e)).Nodup := by
  refine ⟨{ name := "t", inputs := [⟨"a", .named 0 "a", 8, false⟩], output := .named 1 "sub_0",
            outputTy := 8,
            stmts := [.binding ⟨.named 1 "sub_0", .other (some "sub"), [.named 0 "a"], 8⟩] },
    ⟨by decide, by decide, by decide⟩, ?_, ⟨?_, by decide, by simp, by simp⟩, by decide⟩
  · intro n hn
    simp [Entity.names, Stmt.names, Entity.inputNames, Entity.defs, Stmt.defines] at hn ⊢
    grind
  · intro i hi; simp at hi; subst hi; exact ⟨0, rfl⟩

end Spade.Mir
