import Verif.Lower.Props
/-!
# C05: the encoding covers all values, is unambiguous, and is what constructors produce
-/
namespace Spade.Lower
open Spade.Verilog Spade.Codegen
open Spade.Match (Val Matches MatchesAll HasTy HasTys PatTy PatTys)

/-! ## Every value has an encoding -/

mutual
/-- Every value of the source type has an encoding. -/
theorem enc_exists : ∀ (t : MTy) (v : Val), HasTy v (srcTy t) → ∃ b, Enc t v b
  | .int n, v, h => by
    simp only [srcTy] at h
    cases h with
    | int h1 h2 =>
      refine ⟨_, .int ?_⟩
      simp only [InRange]
      simp only [Match.intMin, Match.intMax] at h1 h2
      split at h1 <;> split at h2 <;> omega
  | .uint n, v, h => by
    simp only [srcTy] at h
    cases h with
    | uint h1 h2 =>
      refine ⟨_, .uint ?_⟩
      simp only [InRange]
      simp only [Match.uintMax] at h2
      omega
  | .bool, v, h => by
    simp only [srcTy] at h
    cases h
    exact ⟨_, .bool⟩
  | .tuple ts, v, h => by
    simp only [srcTy] at h
    cases h with
    | tuple h => obtain ⟨bs, hb⟩ := encAll_exists ts _ h; exact ⟨_, .tuple hb⟩
  | .struct ts, v, h => by
    simp only [srcTy] at h
    cases h with
    | struct h => obtain ⟨bs, hb⟩ := encAll_exists ts _ h; exact ⟨_, .struct hb⟩
  | .array t n, v, h => by
    simp only [srcTy] at h
    cases h with
    | array h => obtain ⟨bs, hb⟩ := encRep_exists t n _ h; exact ⟨_, .array hb⟩
  | .memory t n, v, h => by
    simp only [srcTy] at h
    cases h
    exact ⟨_, .memory (bits := List.replicate (MTy.memory t n).size false) (by simp)⟩
  | .enum opts, v, h => by
    simp only [srcTy] at h
    cases h with
    | enum hi h =>
      rename_i i vs ts
      rw [srcTyss_get, Option.map_eq_some_iff] at hi
      obtain ⟨o, ho, rfl⟩ := hi
      obtain ⟨bs, hb⟩ := encAlls_exists opts i vs o ho h
      have := sizes_le_max ho
      exact ⟨_, .enum (pad := List.replicate (maxSize opts - sizes o) false) ho hb
        (by simp; omega)⟩
  | .backward t, v, h => by
    simp only [srcTy] at h
    cases h
    exact ⟨_, .backward⟩
  | .copyView t, v, h => by
    simp only [srcTy] at h
    cases h with
    | copyView h => obtain ⟨b, hb⟩ := enc_exists t _ h; exact ⟨_, .copyView hb⟩
  | .inout t, v, h => by
    simp only [srcTy] at h
    cases h
    exact ⟨_, .inout (bits := List.replicate (MTy.inout t).size false) (by simp)⟩
theorem encAll_exists : ∀ (ts : List MTy) (vs : List Val), HasTys vs (srcTys ts) →
    ∃ bs, EncAll ts vs bs
  | [], _, .nil => ⟨_, .nil⟩
  | t :: ts, _, .cons h h' => by
    obtain ⟨b, hb⟩ := enc_exists t _ h
    obtain ⟨bs, hbs⟩ := encAll_exists ts _ h'
    exact ⟨_, .cons hb hbs⟩
theorem encRep_exists : ∀ (t : MTy) (n : Nat) (vs : List Val),
    HasTys vs (List.replicate n (srcTy t)) → ∃ bs, EncAll (List.replicate n t) vs bs
  | t, 0, _, .nil => ⟨_, .nil⟩
  | t, n + 1, _, .cons h h' => by
    obtain ⟨b, hb⟩ := enc_exists t _ h
    obtain ⟨bs, hbs⟩ := encRep_exists t n _ h'
    exact ⟨_, .cons hb hbs⟩
theorem encAlls_exists : ∀ (opts : List (List MTy)) (i : Nat) (vs : List Val) (o : List MTy),
    opts[i]? = some o → HasTys vs (srcTys o) → ∃ bs, EncAll o vs bs
  | o :: os, 0, vs, _, h, hv => by
    simp only [List.getElem?_cons_zero, Option.some.injEq] at h
    subst h
    exact encAll_exists o vs hv
  | o :: os, i + 1, vs, o', h, hv => by
    simp only [List.getElem?_cons_succ] at h
    exact encAlls_exists os i vs o' h hv
end

/-! ## No two values share an encoding -/

theorem encAll_lens {ts : List MTy} {vs vs' : List Val} {bs bs' : List Bits}
    (h : EncAll ts vs bs) (h' : EncAll ts vs' bs') : bs.map List.length = bs'.map List.length := by
  induction bs generalizing ts vs vs' bs' with
  | nil => cases h; cases h'; rfl
  | cons b bs ih =>
    cases h with
    | cons h1 h2 => cases h' with
      | cons h1' h2' => simp [enc_length h1, enc_length h1', ih h2 h2']

theorem flatten_inj {bs bs' : List Bits} (hl : bs.map List.length = bs'.map List.length)
    (h : bs.flatten = bs'.flatten) : bs = bs' := by
  induction bs generalizing bs' with
  | nil => cases bs' with
    | nil => rfl
    | cons b bs' => simp at hl
  | cons b bs ih => cases bs' with
    | nil => simp at hl
    | cons b' bs' =>
      simp only [List.map_cons, List.cons.injEq] at hl
      simp only [List.flatten_cons] at h
      obtain ⟨rfl, h'⟩ := List.append_inj h hl.1
      rw [ih hl.2 h']

mutual
/-- A vector stands for at most one value. -/
theorem enc_unique : ∀ {t : MTy} {v v' : Val} {b : Bits}, Enc t v b → Enc t v' b → v = v'
  | .int n, _, _, _, .int h, h' => by
    generalize hb : ofInt n _ = b at h'
    cases h' with
    | int h' => rw [(ofInt_eq_iff (.inl rfl) h h').1 hb]
  | .uint n, _, _, _, .uint h, h' => by
    generalize hb : ofInt n _ = b at h'
    cases h' with
    | uint h' => rw [(ofInt_eq_iff (.inr rfl) h h').1 hb]
  | _, _, _, _, .bool, h' => by cases h'; rfl
  | _, _, _, _, .tuple (bss := bss) h, h' => by
    generalize hb : bss.flatten = b at h'
    cases h' with
    | tuple h' =>
      have := flatten_inj (encAll_lens h h') hb
      subst this
      rw [encAll_unique h h']
  | _, _, _, _, .struct (bss := bss) h, h' => by
    generalize hb : bss.flatten = b at h'
    cases h' with
    | struct h' =>
      have := flatten_inj (encAll_lens h h') hb
      subst this
      rw [encAll_unique h h']
  | _, _, _, _, .array (bss := bss) h, h' => by
    generalize hb : bss.reverse.flatten = b at h'
    cases h' with
    | array h' =>
      have := flatten_inj (by rw [List.map_reverse, List.map_reverse, encAll_lens h h']) hb
      have := List.reverse_inj.1 this
      subst this
      rw [encAll_unique h h']
  | _, _, _, _, .enum (opts := opts) (i := i) (bss := bss) (pad := pad) hi h hp, h' => by
    generalize hb : ofNat (tagSize opts.length) i ++ bss.flatten ++ pad = b at h'
    cases h' with
    | enum hi' h' hp' =>
      rw [List.append_assoc, List.append_assoc] at hb
      obtain ⟨h1, h2⟩ := List.append_inj hb (by simp)
      have := ofNat_inj (variant_lt_tag (List.getElem?_eq_some_iff.1 hi).1)
        (variant_lt_tag (List.getElem?_eq_some_iff.1 hi').1) h1
      subst this
      rw [hi] at hi'
      cases hi'
      have hlen := encAll_lens h h'
      obtain ⟨h3, _⟩ := List.append_inj h2 (by rw [List.length_flatten, List.length_flatten, hlen])
      have := flatten_inj hlen h3
      subst this
      rw [encAll_unique h h']
  | _, _, _, _, .memory _, h' => by cases h'; rfl
  | _, _, _, _, .inout _, h' => by cases h'; rfl
  | _, _, _, _, .backward, h' => by cases h'; rfl
  | _, _, _, _, .copyView h, .copyView h' => by rw [enc_unique h h']
theorem encAll_unique : ∀ {ts : List MTy} {vs vs' : List Val} {bs : List Bits}, EncAll ts vs bs →
    EncAll ts vs' bs → vs = vs'
  | _, _, _, _, .nil, .nil => rfl
  | _, _, _, _, .cons h1 h2, .cons h1' h2' => by rw [enc_unique h1 h1', encAll_unique h2 h2']
end

/-- C05, encoding: every value of a type is encoded by some vector of the width of the type, and no
vector encodes two values. -/
theorem C05_encoding (t : MTy) :
    (∀ v, HasTy v (srcTy t) → ∃ b, Enc t v b) ∧
    (∀ v b, Enc t v b → HasTy v (srcTy t) ∧ b.length = t.size) ∧
    ∀ v v' b, Enc t v b → Enc t v' b → v = v' :=
  ⟨fun v h => enc_exists t v h, fun _ _ h => ⟨enc_hasTy h, enc_length h⟩,
    fun _ _ _ h h' => enc_unique h h'⟩

/-! ## Constructors produce encodings -/

/-- The signals `ops` hold the values `vs`. -/
def HoldVals (Γ : Nat → MTy) (ρ : Env) : List Nat → List Val → Prop
  | [], [] => True
  | o :: os, v :: vs => Enc (Γ o) v (ρ (fwd o)) ∧ HoldVals Γ ρ os vs
  | _, _ => False

theorem holdVals_enc {Γ : Nat → MTy} {ρ : Env} : ∀ (ops : List Nat) (vs : List Val),
    HoldVals Γ ρ ops vs → EncAll (ops.map Γ) vs (ops.map fun o => ρ (fwd o))
  | [], [], _ => .nil
  | o :: os, v :: vs, h => .cons h.1 (holdVals_enc os vs h.2)

theorem holdVals_fits {Γ : Nat → MTy} {ρ : Env} : ∀ (ops : List Nat) (vs : List Val),
    HoldVals Γ ρ ops vs → ∀ o ∈ ops, Fits Γ ρ o
  | [], [], _, o, ho => by cases ho
  | a :: os, v :: vs, h, o, ho => by
    simp only [List.mem_cons] at ho
    rcases ho with rfl | ho
    · exact enc_length h.1
    · exact holdVals_fits os vs h.2 o ho

/-- C05, construction: the statement that builds a tuple, struct, array or enum variant from
signals that hold given values gives the encoding of the built value, so a later `match` sees the
value that was built. -/
theorem C05_construct (Γ : Nat → MTy) (ρ : Env) (xs : Nat → Nat → Bool) (n : Nat) (ty : MTy)
    (ops : List Nat) (vs : List Val) (hv : HoldVals Γ ρ ops vs) :
    ((ty = .tuple (ops.map Γ) ∨ ty = .struct (ops.map Γ)) →
      Holds Γ ρ xs (.bind n ty .constructTuple ops) → Enc ty (.tup vs) (ρ (fwd n))) ∧
    (∀ e, ty = .array e ops.length → (∀ o ∈ ops, Γ o = e) →
      Holds Γ ρ xs (.bind n ty .constructArray ops) → Enc ty (.tup vs) (ρ (fwd n))) ∧
    (∀ opts i, ty = .enum opts → opts[i]? = some (ops.map Γ) →
      Holds Γ ρ xs (.bind n ty (.constructEnum i) ops) → Enc ty (.variant i vs) (ρ (fwd n))) := by
  have he := holdVals_enc ops vs hv
  have hf := holdVals_fits ops vs hv
  refine ⟨?_, ?_, ?_⟩
  · intro ht h
    obtain ⟨_, h⟩ := h
    rw [tuple_bits (xs n) (by rcases ht with rfl | rfl <;> simp [MTy.size]) hf] at h
    rw [← Option.some.inj h, allBits, List.flatMap_def]
    rcases ht with rfl | rfl
    · exact .tuple he
    · exact .struct he
  · rintro e rfl ho ⟨_, h⟩
    have hmap : ops.map Γ = List.replicate ops.length e := by
      rw [List.eq_replicate_iff]; simpa using ho
    rw [array_bits (t := e) (xs n) (by simp [MTy.size, Nat.mul_comm]) (fun o h => by rw [← ho o h]; exact hf o h)] at h
    rw [← Option.some.inj h, allBits, List.flatMap_def, List.map_reverse]
    rw [hmap] at he
    exact .array he
  · rintro opts i rfl hi ⟨_, h⟩
    rw [construct_bits (xs n) hi hf] at h
    rw [← Option.some.inj h, allBits, List.flatMap_def]
    have := sizes_le_max hi
    exact .enum hi he (by simp [MTy.size]; omega)

end Spade.Lower
