import Verif.Mir.Entity
import Verif.Mir.AliasProps
import Verif.Codegen.Tuple
/-!
# Registers over time

The meaning of registers and operators as histories of bits, for the passes that rewrite registers.
-/
namespace Spade.Mir
open Spade.Codegen Spade.Verilog

/-- The history of a signal: its type and, at every moment, as many bits as the type has. -/
structure Sig where
  ty : MTy
  bits : Nat → Bits
  fits : ∀ t, (bits t).length = ty.size

/-- A signal of no bits. -/
instance : Inhabited Sig := ⟨⟨.tuple [], fun _ => [], fun _ => rfl⟩⟩

theorem Sig.ext' {a b : Sig} (h1 : a.ty = b.ty) (h2 : ∀ t, a.bits t = b.bits t) : a = b := by
  rcases a with ⟨ta, ba, fa⟩; rcases b with ⟨tb, bb, fb⟩
  simp only at h1 h2; subst h1
  obtain rfl : ba = bb := funext h2
  rfl

/-- The types of the operands, by position. -/
def opTypes (os : List Sig) (i : Nat) : MTy := (os[i]?.getD default).ty

/-- The Verilog variables of the operands at one moment, by position. -/
def opEnv (os : List Sig) (t : Nat) (x : Nat) : Bits := (os[x / 2]?.getD default).bits t

/-- The code emitted for an operator (`fwdCode`) gives `r` at every moment. -/
def OpSem (op : Op) (ty : MTy) (r : Sig) (os : List Sig) : Prop :=
  r.ty = ty ∧ ∀ t, ∃ xs, runOp (opTypes os) ty op (List.range os.length) (opEnv os t) xs = some (r.bits t)

/-- The clock rises between the moments `t` and `t + 1`. -/
def Rises (clk : Sig) (t : Nat) : Bool := !truth (clk.bits t) && truth (clk.bits (t + 1))

/-- The value a reset forces at a moment, if there is a reset and it is active. -/
def resetBits (rst : Option (Sig × Sig)) (t : Nat) : Option Bits :=
  rst.bind fun q => if truth (q.1.bits t) then some (q.2.bits t) else none

/-- The code emitted for a register without initial value (codegen/mod.rs:1118-1139):
`always @(posedge clk) if (rst) r <= rstval; else r <= value;`.  The right hand sides are read before
the edge.  No variable is declared for a register of size 0 (mod.rs:118-160, as for bindings), so the
code is not legal then. -/
def RegSem (ty : MTy) (clk : Sig) (rst : Option (Sig × Sig)) (value r : Sig) : Prop :=
  r.ty = ty ∧ ty.size ≠ 0 ∧ ∀ t, r.bits (t + 1) =
    if Rises clk t then resize false ty.size ((resetBits rst t).getD (value.bits t)) else r.bits t

/-- An interpretation that gives the operators of the code generator and the registers their meaning.
Everything else (instances, memories, initial values, assertions, …) is arbitrary. -/
structure Synchronous {C Ini : Type} (I : Interp Op MTy C Ini Sig) : Prop where
  op : ∀ op ty r os, I.op op ty r os ↔ OpSem op ty r os
  reg : ∀ ty clk rst value r, I.reg ty none clk rst value r ↔ RegSem ty clk rst value r

theorem opEnv_fits (os : List Sig) (t i : Nat) : Fits (opTypes os) (opEnv os t) i := by
  simp only [Fits, opTypes, opEnv, fwd, Nat.mul_div_cancel_left i (by decide : 0 < 2)]
  exact (os[i]?.getD default).fits t

theorem opEnv_fwd (os : List Sig) (t i : Nat) : opEnv os t (fwd i) = (os[i]?.getD default).bits t := by
  simp only [opEnv, fwd, Nat.mul_div_cancel_left i (by decide : 0 < 2)]

/-- Members next to each other, the first one in the most significant bits. -/
def joined (os : List Sig) (t : Nat) : Bits := (os.map fun s => s.bits t).flatten

theorem range_types : ∀ os : List Sig, (List.range os.length).map (opTypes os) = os.map (·.ty) := by
  intro os
  apply List.ext_getElem
  · simp
  · intro i h1 h2
    simp only [List.length_map, List.length_range] at h1
    simp [opTypes, List.getElem?_eq_getElem h1]

theorem allBits_range (os : List Sig) (t : Nat) :
    allBits (fun o => opEnv os t (fwd o)) (List.range os.length) = joined os t := by
  have h : ∀ l : List Nat, allBits (fun o => opEnv os t (fwd o)) l =
      (l.map fun o => opEnv os t (fwd o)).flatten := by
    intro l
    induction l with
    | nil => rfl
    | cons a l ih => simp [allBits] at ih ⊢; exact ih
  rw [h, joined]
  congr 1
  apply List.ext_getElem
  · simp
  · intro i h1 h2
    simp only [List.length_map, List.length_range] at h1
    simp [opEnv_fwd, List.getElem?_eq_getElem h1]

/-- Constructing a tuple, a struct or (after splitting) an array. -/
theorem opSem_constructTuple {ty : MTy} {r : Sig} {os : List Sig}
    (hs : ty.size = sizes (os.map (·.ty))) :
    OpSem .constructTuple ty r os ↔ r.ty = ty ∧ ∀ t, r.bits t = joined os t := by
  have h : ∀ t xs, runOp (opTypes os) ty .constructTuple (List.range os.length) (opEnv os t) xs =
      some (joined os t) := by
    intro t xs
    rw [tuple_bits xs (by rw [range_types]; exact hs) (fun o _ => opEnv_fits os t o), allBits_range]
  simp only [OpSem, h, Option.some.injEq, exists_const]
  exact and_congr_right fun _ => forall_congr' fun t => eq_comm

/-- The bits of member `i` of a value made of members of types `ts`. -/
def memberBits (ts : List MTy) (i : Nat) (bs : Bits) : Bits :=
  (bs.drop (sizes (ts.take i))).take ((ts[i]?.map MTy.size).getD 0)

theorem sizes_take_add {ts : List MTy} {i : Nat} {t : MTy} (h : ts[i]? = some t) :
    sizes (ts.take i) + t.size + sizes (ts.drop (i + 1)) = sizes ts := by
  have hi : i < ts.length := by
    rcases Nat.lt_or_ge i ts.length with h' | h'
    · exact h'
    · rw [List.getElem?_eq_none h'] at h; cases h
  have he : ts = ts.take i ++ t :: ts.drop (i + 1) := by
    rw [List.getElem?_eq_getElem hi, Option.some.injEq] at h
    rw [← h, List.getElem_cons_drop, List.take_append_drop]
  conv => rhs; rw [he]
  rw [sizes_append]; simp [sizes, Nat.add_assoc]

theorem memberBits_length {ts : List MTy} {i : Nat} {t : MTy} {bs : Bits} (h : ts[i]? = some t)
    (hb : bs.length = sizes ts) : (memberBits ts i bs).length = t.size := by
  have := sizes_take_add h
  simp only [memberBits, h, Option.map_some, Option.getD_some, List.length_take, List.length_drop]
  omega

/-- Taking a member of a tuple, a struct or an array that is treated like a tuple. -/
theorem opSem_indexTuple {i : Nat} {ts : List MTy} {mty : MTy} {r a : Sig}
    (ht : tupleTypes a.ty = some ts) (hi : ts[i]? = some mty) (hsz : a.ty.size = sizes ts)
    (h32 : sizes ts ≤ 2 ^ 32) :
    OpSem (.indexTuple i) mty r [a] ↔ r.ty = mty ∧ ∀ t, r.bits t = memberBits ts i (a.bits t) := by
  have hsum := sizes_take_add hi
  have h : ∀ t xs, runOp (opTypes [a]) mty (.indexTuple i) (List.range [a].length) (opEnv [a] t) xs =
      some (memberBits ts i (a.bits t)) := by
    intro t xs
    have hlen := a.fits t
    refine index_bits (r := 0) (before := (a.bits t).take (sizes (ts.take i)))
      (after := (a.bits t).drop (sizes (ts.take i) + mty.size)) ht hi rfl ?_ ?_ ?_ ?_ h32
    · show a.bits t = _
      simp only [memberBits, hi, Option.map_some, Option.getD_some]
      rw [List.append_assoc, ← List.drop_drop, List.take_append_drop, List.take_append_drop]
    · rw [List.length_take]; omega
    · exact memberBits_length hi (by omega)
    · show (a.bits t).length = _; omega
  simp only [OpSem, h, Option.some.injEq, exists_const]
  exact and_congr_right fun _ => forall_congr' fun t => eq_comm

/-- The members of a value, put next to each other, give it back. -/
theorem memberBits_join (ts : List MTy) (bs : Bits) (hb : bs.length = sizes ts) :
    ((List.range ts.length).map fun i => memberBits ts i bs).flatten = bs := by
  have key : ∀ k, k ≤ ts.length →
      ((List.range k).map fun i => memberBits ts i bs).flatten = bs.take (sizes (ts.take k)) := by
    intro k
    induction k with
    | zero => intro _; simp [sizes]
    | succ k ih =>
      intro hk
      have hk' : k < ts.length := by omega
      rw [List.range_succ, List.map_append, List.flatten_append, ih (by omega)]
      have ht : ts.take (k + 1) = ts.take k ++ [ts[k]] := by rw [List.take_succ_eq_append_getElem hk']
      have hs : sizes (ts.take (k + 1)) = sizes (ts.take k) + ts[k].size := by
        rw [ht, sizes_append]; simp [sizes]
      rw [hs]
      simp only [List.map_cons, List.map_nil, List.flatten_cons, List.flatten_nil, List.append_nil,
        memberBits, List.getElem?_eq_getElem hk', Option.map_some, Option.getD_some]
      rw [List.take_add]
  have := key ts.length (Nat.le_refl _)
  rw [this, List.take_length, ← hb, List.take_length]

/-- Member `i` of members put next to each other. -/
theorem memberBits_joined {os : List Sig} {i : Nat} {o : Sig} (h : os[i]? = some o) (t : Nat) :
    memberBits (os.map (·.ty)) i (joined os t) = o.bits t := by
  have hi : i < os.length := by
    rcases Nat.lt_or_ge i os.length with h' | h'
    · exact h'
    · rw [List.getElem?_eq_none h'] at h; cases h
  have he : os = os.take i ++ o :: os.drop (i + 1) := by
    rw [List.getElem?_eq_getElem hi, Option.some.injEq] at h
    rw [← h, List.getElem_cons_drop, List.take_append_drop]
  have hlen : ∀ l : List Sig, (joined l t).length = sizes (l.map (·.ty)) := by
    intro l
    induction l with
    | nil => simp [joined, sizes]
    | cons a l ih => simp only [joined] at ih ⊢; simp [sizes, ih, a.fits]
  have hj : joined os t = joined (os.take i) t ++ (o.bits t ++ joined (os.drop (i + 1)) t) := by
    conv => lhs; rw [he]
    simp [joined]
  have hm : (os.map (·.ty))[i]? = some o.ty := by simp [h]
  simp only [memberBits, hm, Option.map_some, Option.getD_some]
  rw [hj, ← List.map_take, ← hlen, List.drop_left, ← o.fits t, List.take_left]

end Spade.Mir
