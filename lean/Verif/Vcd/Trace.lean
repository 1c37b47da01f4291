import Verif.Vcd.Inject
import Verif.Vcd.Depict
import Verif.Lower.Props
import Verif.Codegen.Arith
/-! C34: the properties of the translator of traces. -/
namespace Spade.Vcd

open Spade.Codegen Spade.Verilog
open Spade.Match (Val)
open Spade.Lower (Enc EncAll)

/-! ## Types of which everything is shown -/

theorem allsPlain_get : ∀ {opts : List (List Ty)} {i : Nat} {ts : List Ty}, AllsPlain opts →
    opts[i]? = some ts → AllPlain ts
  | o :: os, 0, ts, h, e => by simp at e; subst e; exact h.1
  | o :: os, i + 1, ts, h, e => by simp at e; exact allsPlain_get (opts := os) h.2 e

mutual
theorem plain_size : ∀ (t : Ty), t.Plain → t.size ≠ 0
  | .error, _ => by simp [Ty.size, Ty.toMir, MTy.size]
  | .int n, h => by simpa [Ty.size, Ty.toMir, MTy.size, Ty.Plain] using h
  | .uint n, h => by simpa [Ty.size, Ty.toMir, MTy.size, Ty.Plain] using h
  | .bool, _ => by simp [Ty.size, Ty.toMir, MTy.size]
  | .memory t n, h => h
  | .inout t, h => by
    have := plain_size t h
    simpa [Ty.size, Ty.toMir, MTy.size] using this
  | .copyView t, h => by
    have := plain_size t h
    simpa [Ty.size, Ty.toMir, MTy.size] using this
  | .tuple ts, h => by
    rw [Ty.size_tuple]
    exact plain_sizes ts h.1 h.2
  | .struct ns ts, h => by
    rw [Ty.size_struct]
    exact plain_sizes ts h.1 h.2
  | .array t n, h => by
    have := plain_size t h.2
    rw [Ty.size_array, h.1]
    omega
  | .enum ns opts, h => h.1
  | .backward t, h => h.elim
theorem plain_sizes : ∀ (ts : List Ty), ts ≠ [] → AllPlain ts → (ts.map Ty.size).sum ≠ 0
  | [], h, _ => (h rfl).elim
  | t :: ts, _, h => by
    have := plain_size t h.1
    simp only [List.map_cons, List.sum_cons]
    omega
end

mutual
theorem seen_plain : ∀ (t : Ty) (p : Shown) (l : List Level), t.Plain → Reads t p l → t.seen p = p
  | t, p, l, hp, h => by
    have hz := plain_size t hp
    match t, h with
    | .error, .error => simp [Ty.seen, hz]
    | .int n, .int _ => simp [Ty.seen, hz]
    | .int n, .intBad _ hb => simp [Ty.seen, hz]
    | .uint n, .uint _ => simp [Ty.seen, hz]
    | .uint n, .uintBad _ hb => simp [Ty.seen, hz]
    | .bool, .bool => simp [Ty.seen, hz]
    | .bool, .boolBad _ hb => simp [Ty.seen, hz]
    | .memory t n, .memory _ => simp [Ty.seen, hz]
    | .backward t, .backward => exact hp.elim
    | .inout t, .inout h => simp only [Ty.seen]; exact seen_plain t p l hp h
    | .copyView t, .copyView h => simp only [Ty.seen]; exact seen_plain t p l hp h
    | .tuple ts, .tuple h => simp only [Ty.seen, hz, ↓reduceIte]; rw [seens_plain ts _ _ hp.2 h]
    | .struct ns ts, .struct h => simp only [Ty.seen, hz, ↓reduceIte]; rw [seens_plain ts _ _ hp.2 h]
    | .array t n, .array h =>
      simp only [Ty.seen, hz, ↓reduceIte]
      obtain ⟨rfl, hp⟩ := hp
      cases h with
      | cons h1 h2 =>
        cases h2
        simp [seen_plain t _ _ hp h1]
    | .enum ns opts, .variant ho hn h _ =>
      simp only [Ty.seen, hz, ↓reduceIte]
      rw [optSeens_get _ ho, seens_opt opts _ _ _ _ hp.2 ho h]
    | .enum ns opts, .noVariant _ _ _ => simp [Ty.seen, hz]
    | .enum ns opts, .undefTag _ _ => simp [Ty.seen, hz]
    | .enum ns opts, .highzTag _ _ => simp [Ty.seen, hz]
theorem seens_plain : ∀ (ts : List Ty) (ps : List Shown) (ls : List (List Level)), AllPlain ts →
    ReadsAll ts ps ls → seens ts ps = ps
  | [], _, _, _, .nil => rfl
  | t :: ts, _, _, hp, .cons h1 h2 => by
    simp only [seens]
    rw [seen_plain t _ _ hp.1 h1, seens_plain ts _ _ hp.2 h2]
theorem seens_opt : ∀ (opts : List (List Ty)) (i : Nat) (ts : List Ty) (ps : List Shown)
    (ls : List (List Level)), AllsPlain opts → opts[i]? = some ts → ReadsAll ts ps ls → seens ts ps = ps
  | [], i, ts, _, _, _, h, _ => by simp at h
  | o :: os, 0, ts, ps, ls, hp, h, hr => by
    simp only [List.getElem?_cons_zero, Option.some.injEq] at h
    subst h
    exact seens_plain o ps ls hp.1 hr
  | o :: os, i + 1, ts, ps, ls, hp, h, hr => by
    simp only [List.getElem?_cons_succ] at h
    exact seens_opt os i ts ps ls hp.2 h hr
end

/-! ## Source values -/

theorem toMirss_get : ∀ {opts : List (List Ty)} {i : Nat} {ms : List MTy}, (toMirss opts)[i]? = some ms →
    ∃ ts, opts[i]? = some ts ∧ ms = toMirs ts
  | [], i, ms, h => by simp [toMirss] at h
  | o :: os, 0, ms, h => by
    simp only [toMirss, List.getElem?_cons_zero, Option.some.injEq] at h
    exact ⟨o, rfl, h.symm⟩
  | o :: os, i + 1, ms, h => by
    simp only [toMirss, List.getElem?_cons_succ] at h
    simpa using toMirss_get (opts := os) h

theorem lift_flatten (bss : List Bits) : lift bss.flatten = (bss.map lift).flatten := by
  induction bss with
  | nil => rfl
  | cons b bs ih => simp [ih]

theorem enc_array {t : Ty} (ht : ∀ v bits, Enc t.toMir v bits → ∃ p, Reads t p (lift bits) ∧ Depicts t v p) :
    ∀ (n : Nat) (vs : List Val) (bss : List Bits), EncAll (List.replicate n t.toMir) vs bss →
    ∃ ps, ReadsAll (List.replicate n t) ps (bss.map lift) ∧ DepictsAll (List.replicate n t) vs ps
  | 0, _, _, .nil => ⟨[], .nil, .nil⟩
  | n + 1, _, _, .cons h1 h2 => by
    obtain ⟨p, a, b⟩ := ht _ _ h1
    obtain ⟨ps, c, d⟩ := enc_array ht n _ _ h2
    exact ⟨p :: ps, .cons a c, .cons b d⟩

mutual
/-- The bits of a value carry its picture. -/
theorem enc_reads : ∀ (t : Ty) (v : Val) (bits : Bits), t.Named → Enc t.toMir v bits →
    ∃ p, Reads t p (lift bits) ∧ Depicts t v p
  | .error, v, bits, _, h => by
    have hl := Spade.Lower.enc_length h
    match bits, hl with
    | [b], _ => exact ⟨.nothing, .error, .error⟩
  | .int n, v, bits, _, h => by
    simp only [Ty.toMir] at h
    cases h with
    | @int _ z hr =>
      refine ⟨.num z, ?_, .int⟩
      have hz : toInt (ofInt n z) = z := by
        rcases hr with ⟨rfl, rfl⟩ | ⟨hn, h1, h2⟩
        · rfl
        · obtain ⟨m, rfl⟩ : ∃ m, n = m + 1 := ⟨n - 1, by omega⟩
          exact toInt_ofInt h1 h2
      have := Reads.int (bs := ofInt n z) (n := n) (by simp)
      rwa [hz] at this
  | .uint n, v, bits, _, h => by
    simp only [Ty.toMir] at h
    cases h with
    | @uint _ z hr =>
      refine ⟨.num z, ?_, .uint⟩
      have hz := toNat_ofInt_exact hr.1 hr.2
      have := Reads.uint (bs := ofInt n z) (n := n) (by simp)
      rwa [hz] at this
  | .bool, v, bits, _, h => by
    simp only [Ty.toMir] at h
    cases h with
    | bool => exact ⟨_, .bool, .bool⟩
  | .memory t n, v, bits, _, h => by
    simp only [Ty.toMir] at h
    cases h with
    | memory hl => exact ⟨.memory, .memory (by rw [lift_length, hl]; rfl), .memory⟩
  | .inout t, v, bits, hn, h => by
    simp only [Ty.toMir] at h
    cases h with
    | inout hl =>
      obtain ⟨p, hp⟩ := reads_total t (lift bits) hn (by rw [lift_length, hl]; simp [Ty.size, MTy.size])
      exact ⟨p, .inout hp, .inout⟩
  | .backward t, v, bits, _, h => by
    simp only [Ty.toMir] at h
    cases h with
    | backward => exact ⟨.nothing, .backward, .backward⟩
  | .copyView t, v, bits, hn, h => by
    simp only [Ty.toMir] at h
    cases h with
    | copyView h =>
      obtain ⟨p, a, b⟩ := enc_reads t _ _ hn h
      exact ⟨p, .copyView a, .copyView b⟩
  | .tuple ts, v, bits, hn, h => by
    simp only [Ty.toMir] at h
    cases h with
    | tuple h =>
      obtain ⟨ps, a, b⟩ := enc_readsAll ts _ _ hn h
      rw [lift_flatten]
      exact ⟨.tuple ps, .tuple a, .tuple b⟩
  | .struct ns ts, v, bits, hn, h => by
    simp only [Ty.toMir] at h
    cases h with
    | struct h =>
      obtain ⟨ps, a, b⟩ := enc_readsAll ts _ _ hn.2 h
      rw [lift_flatten]
      exact ⟨.struct ns ps, .struct a, .struct b⟩
  | .array t n, v, bits, hn, h => by
    simp only [Ty.toMir] at h
    cases h with
    | array h =>
      obtain ⟨ps, a, b⟩ := enc_array (fun v bits h => enc_reads t v bits hn h) n _ _ h
      rw [lift_flatten, List.map_reverse]
      exact ⟨.array ps, .array a, .array b⟩
  | .enum ns opts, v, bits, hn, h => by
    simp only [Ty.toMir] at h
    cases h with
    | @enum _ i ms vs bss pad hm he hp =>
      obtain ⟨ts, ho, rfl⟩ := toMirss_get hm
      obtain ⟨ps, a, b⟩ := enc_opts opts i ts vs bss hn.2 ho he
      have hi := (List.getElem?_eq_some_iff.mp ho).1
      have hname : ns[i]? = some (ns[i]'(by rw [hn.1]; exact hi)) := List.getElem?_eq_getElem _
      refine ⟨.variant i _ ps, ?_, .variant ho hname b⟩
      rw [toMirss_length, lift_append, lift_append, lift_flatten]
      refine .variant ho hname a ?_
      rw [a.length, Ty.size_enum, lift_length, ← hp, toMirs_sizes]
      omega
theorem enc_readsAll : ∀ (ts : List Ty) (vs : List Val) (bss : List Bits), AllNamed ts →
    EncAll (toMirs ts) vs bss → ∃ ps, ReadsAll ts ps (bss.map lift) ∧ DepictsAll ts vs ps
  | [], _, _, _, .nil => ⟨[], .nil, .nil⟩
  | t :: ts, _, _, hn, .cons h1 h2 => by
    obtain ⟨p, a, b⟩ := enc_reads t _ _ hn.1 h1
    obtain ⟨ps, c, d⟩ := enc_readsAll ts _ _ hn.2 h2
    exact ⟨p :: ps, .cons a c, .cons b d⟩
theorem enc_opts : ∀ (opts : List (List Ty)) (i : Nat) (ts : List Ty) (vs : List Val) (bss : List Bits),
    AllsNamed opts → opts[i]? = some ts → EncAll (toMirs ts) vs bss →
    ∃ ps, ReadsAll ts ps (bss.map lift) ∧ DepictsAll ts vs ps
  | [], i, ts, _, _, _, h, _ => by simp at h
  | o :: os, 0, ts, vs, bss, hn, h, he => by
    simp only [List.getElem?_cons_zero, Option.some.injEq] at h
    subst h
    exact enc_readsAll o vs bss hn.1 he
  | o :: os, i + 1, ts, vs, bss, hn, h, he => by
    simp only [List.getElem?_cons_succ] at h
    exact enc_opts os i ts vs bss hn.2 h he
end

/-! ## Extension -/

theorem extend_length {n : Nat} {l : List Level} (h : l ≠ []) (hn : l.length ≤ n) : (extend n l).length = n := by
  cases l with
  | nil => exact absurd rfl h
  | cons b l => simp only [extend, List.length_append, List.length_replicate]; omega

theorem withValue_extend (debug : Bool) {size : Nat} {l : List Level} (h : l ≠ []) (hn : l.length ≤ size)
    (rest : List Level → Option Str) :
    withValue debug size l rest = rest (extend size l) := by
  cases l with
  | nil => exact absurd rfl h
  | cons b l =>
    have h0 : ¬ size < (b :: l).length := by omega
    have h1 : size ≠ 0 := by simp at hn; omega
    simp only [withValue, h0, and_false, ↓reduceIte, h1, extend]
    cases b <;> rfl

theorem withValue_ext_eq (debug : Bool) {size : Nat} {l : List Level} (h : l ≠ []) (hn : l.length ≤ size)
    (rest : List Level → Option Str) :
    withValue debug size l rest = withValue debug size (extend size l) rest := by
  rw [withValue_extend debug h hn]
  have hl := extend_length h hn
  have hne : size ≠ 0 := by cases l <;> simp at h hn; omega
  rw [withValue_full debug hl hne]

/-- A value that is too short is translated as if it were extended. -/
theorem translate_extend (debug : Bool) : ∀ (t : Ty) (l : List Level), l ≠ [] → l.length ≤ t.size →
    translate debug t l = translate debug t (extend t.size l)
  | .inout t, l, h, hn => by
    have e := translate_extend debug t l h hn
    rw [translate, translate, withValue_extend debug h hn]
    have hl := extend_length h hn
    have hne : (Ty.inout t).size ≠ 0 := by cases l <;> simp at h hn; omega
    rw [withValue_full debug hl hne]
    exact e
  | .copyView t, l, h, hn => by
    have e := translate_extend debug t l h hn
    rw [translate, translate, withValue_extend debug h hn]
    have hl := extend_length h hn
    have hne : (Ty.copyView t).size ≠ 0 := by cases l <;> simp at h hn; omega
    rw [withValue_full debug hl hne]
    exact e
  | .backward t, l, h, hn => by
    cases l with
    | nil => exact absurd rfl h
    | cons b l => simp [Ty.size, Ty.toMir, MTy.size] at hn
  | .error, l, h, hn => by rw [translate, translate]; exact withValue_ext_eq debug h hn _
  | .int n, l, h, hn => by rw [translate, translate]; exact withValue_ext_eq debug h hn _
  | .uint n, l, h, hn => by rw [translate, translate]; exact withValue_ext_eq debug h hn _
  | .bool, l, h, hn => by rw [translate, translate]; exact withValue_ext_eq debug h hn _
  | .memory t n, l, h, hn => by rw [translate, translate]; exact withValue_ext_eq debug h hn _
  | .tuple ts, l, h, hn => by rw [translate, translate]; exact withValue_ext_eq debug h hn _
  | .struct ns ts, l, h, hn => by rw [translate, translate]; exact withValue_ext_eq debug h hn _
  | .array t n, l, h, hn => by rw [translate, translate]; exact withValue_ext_eq debug h hn _
  | .enum ns opts, l, h, hn => by rw [translate, translate]; exact withValue_ext_eq debug h hn _

/-- What happens to values with too many bits. -/
theorem translate_long (debug : Bool) : ∀ (t : Ty) (l : List Level), t.size < l.length →
    translate debug t l = if debug then none else some []
  | t, l, h => by
    cases t <;> rw [translate] <;> simp only [withValue, h, and_true] <;> cases debug <;> simp

/-! ## The properties -/

/-- **C34**: the text shown for levels of the width of the type is the text of the one value that
they carry, as the translator sees it (`Ty.seen`: what has no wires is not shown, and arrays are listed
from the last element).  In particular no such levels make the translator panic. -/
theorem C34_translate_partial (debug : Bool) (t : Ty) (l : List Level) (hn : t.Named)
    (hl : l.length = t.size) :
    ∃ p, Reads t p l ∧ (∀ p', Reads t p' l → p' = p) ∧ translateValue debug t l = some (text (t.seen p)) := by
  obtain ⟨p, hp⟩ := reads_total t l hn hl
  exact ⟨p, hp, fun p' h => reads_unique t l p' p h hp, translate_reads debug t p l hp⟩

/-- **C34**: if all parts of the type have wires and arrays have one element, the text is
the text of the value. -/
theorem C34_plain (debug : Bool) (t : Ty) (l : List Level) (hn : t.Named) (hp : t.Plain)
    (hl : l.length = t.size) :
    ∃ p, Reads t p l ∧ (∀ p', Reads t p' l → p' = p) ∧ translateValue debug t l = some (text p) := by
  obtain ⟨p, h1, h2, h3⟩ := C34_translate_partial debug t l hn hl
  exact ⟨p, h1, h2, by rw [h3, seen_plain t p l hp h1]⟩

/-- **C34**: the bits of a source value are translated to the text of that value. -/
theorem C34_source_partial (debug : Bool) (t : Ty) (v : Val) (bits : Bits) (hn : t.Named)
    (h : Enc t.toMir v bits) :
    ∃ p, Depicts t v p ∧ translateValue debug t (lift bits) = some (text (t.seen p)) := by
  obtain ⟨p, h1, h2⟩ := enc_reads t v bits hn h
  exact ⟨p, h2, translate_reads debug t p _ h1⟩

/-- **C34**: the same for types all of whose parts are shown as they are. -/
theorem C34_source_plain (debug : Bool) (t : Ty) (v : Val) (bits : Bits) (hn : t.Named) (hp : t.Plain)
    (h : Enc t.toMir v bits) :
    ∃ p, Depicts t v p ∧ translateValue debug t (lift bits) = some (text p) := by
  obtain ⟨p, h1, h2⟩ := enc_reads t v bits hn h
  refine ⟨p, h2, ?_⟩
  rw [← seen_plain t p _ hp h1]
  exact translate_reads debug t p _ h1

/-- **C34**: the text determines the value: levels with the same text carry the same value. -/
theorem C34_text_determines (debug : Bool) (t : Ty) (l l' : List Level) (hn : t.Named) (hg : t.Legible)
    (hl : l.length = t.size) (hl' : l'.length = t.size)
    (h : translateValue debug t l = translateValue debug t l') : ∃ p, Reads t p l ∧ Reads t p l' := by
  obtain ⟨p, h1, _, h2⟩ := C34_translate_partial debug t l hn hl
  obtain ⟨p', h1', _, h2'⟩ := C34_translate_partial debug t l' hn hl'
  rw [h2, h2', Option.some.injEq] at h
  have := (determines t hg p p' l l' [] [] h1 h1' ends_nil ends_nil (by rw [h])).1
  exact ⟨p, h1, this ▸ h1'⟩

/-- **C34**: values that are too short are extended as Verilog does. -/
theorem C34_extension (debug : Bool) (t : Ty) (l : List Level) (h : l ≠ []) (hl : l.length ≤ t.size) :
    (extend t.size l).length = t.size ∧
    translateValue debug t l = translateValue debug t (extend t.size l) :=
  ⟨extend_length h hl, translate_extend debug t l h hl⟩

end Spade.Vcd
