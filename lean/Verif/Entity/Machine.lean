import Verif.Entity.Names
import Verif.Expr.Exists
/-!
# Histories of entities

Entities as machines whose states are snapshots of all signals, and the construction of snapshots
when there is no combinational loop.
-/
namespace Spade.Entity
open Spade.Verilog Spade.Codegen Spade.Lower Spade.Expr

variable {H : Nat → Option HUnit} {HE : Nat → Option HEnt} {Γ : Nat → MTy}

/-- A machine: states are snapshots at an instant, which include the inputs. -/
structure Mach where
  S : Type
  Start : List Bits → S → Prop
  Next : S → List Bits → S → Prop
  out : S → Bits

/-- A machine can always go on, and its runs are histories of the entity `u`. -/
structure Mach.Good (M : Mach) (H : Nat → Option HUnit) (HE : Nat → Option HEnt) (u : Nat)
    (ws : List Nat) (w : Nat) : Prop where
  start : ∀ ins : List Bits, ins.map List.length = ws → ∃ s, M.Start ins s
  next : ∀ s, ∀ ins : List Bits, ins.map List.length = ws → ∃ s', M.Next s ins s'
  width : ∀ s, (M.out s).length = w
  run : ∀ (ins : Nat → List Bits) (s : Nat → M.S), M.Start (ins 0) (s 0) →
    (∀ t, M.Next (s t) (ins (t + 1)) (s (t + 1))) → EProduces H HE u ins (fun t => M.out (s t))

/-- A snapshot: values of all signals, and a snapshot of every instance. -/
abbrev Snap (Γ : Nat → MTy) (Ms : Nat → Mach) := {ρ : Env // ∀ m, Fits Γ ρ m} × (∀ n, (Ms n).S)

variable {Ms : Nat → Mach}

/-- Changes one signal and the instance that drives it. -/
def Snap.set (s : Snap Γ Ms) (n : Nat) (b : Bits) (hb : b.length = (Γ n).size) (x : (Ms n).S) :
    Snap Γ Ms :=
  (⟨setVar s.1.1 n b, fits_setVar s.1.2 hb⟩, fun m => if h : m = n then h ▸ x else s.2 m)

theorem Snap.set_self (s : Snap Γ Ms) (n : Nat) (b : Bits) (hb : b.length = (Γ n).size) (x : (Ms n).S) :
    (s.set n b hb x).1.1 (fwd n) = b ∧ (s.set n b hb x).2 n = x := by
  refine ⟨setVar_self _ _ _, ?_⟩
  simp [Snap.set]

theorem Snap.set_ne (s : Snap Γ Ms) {n m : Nat} (b : Bits) (hb : b.length = (Γ n).size) (x : (Ms n).S)
    (h : m ≠ n) : (s.set n b hb x).1.1 (fwd m) = s.1.1 (fwd m) ∧ (s.set n b hb x).2 m = s.2 m :=
  ⟨setVar_ne _ _ h, by simp [Snap.set, h]⟩

/-- Every statement reads signals in `S` and signals that earlier ones drive. -/
def ESeq (S : Nat → Prop) : List EItem → Prop
  | [] => True
  | i :: is => (∀ n ∈ i.now, S n) ∧ ESeq (fun n => S n ∨ n ∈ i.defs) is

/-- A snapshot can be changed at the signal of a statement such that the statement holds as long as
the signals it depends on do not change. -/
def Local (K : EItem → Snap Γ Ms → Prop) (i : EItem) : Prop :=
  ∀ s : Snap Γ Ms, ∃ s1 : Snap Γ Ms,
    (∀ m, m ∉ i.defs → s1.1.1 (fwd m) = s.1.1 (fwd m) ∧ s1.2 m = s.2 m) ∧
    ∀ s' : Snap Γ Ms, (∀ m ∈ i.now, s'.1.1 (fwd m) = s.1.1 (fwd m)) →
      (∀ m ∈ i.defs, s'.1.1 (fwd m) = s1.1.1 (fwd m) ∧ s'.2 m = s1.2 m) → K i s'

theorem settle {K : EItem → Snap Γ Ms → Prop} : ∀ {is : List EItem} {S : Nat → Prop},
    (∀ i ∈ is, Local K i) → ESeq S is → (∀ n ∈ eDefs is, ¬ S n) → (eDefs is).Nodup →
    ∀ s : Snap Γ Ms, ∃ s' : Snap Γ Ms,
      (∀ m, m ∉ eDefs is → s'.1.1 (fwd m) = s.1.1 (fwd m) ∧ s'.2 m = s.2 m) ∧ ∀ i ∈ is, K i s'
  | [], S, _, _, _, _, s => ⟨s, fun _ _ => ⟨rfl, rfl⟩, by simp⟩
  | i :: is, S, hL, hs, hS, hd, s => by
    rw [eDefs_cons] at hd hS
    obtain ⟨d1, d2, d3⟩ := List.nodup_append.1 hd
    obtain ⟨s1, k1, h1⟩ := hL i (by simp) s
    obtain ⟨s2, k2, h2⟩ := settle (is := is) (S := fun n => S n ∨ n ∈ i.defs)
      (fun j hj => hL j (List.mem_cons_of_mem _ hj)) hs.2 (by
        rintro n hn (h | h)
        · exact hS n (List.mem_append_right _ hn) h
        · exact d3 n h n hn rfl) d2 s1
    refine ⟨s2, ?_, ?_⟩
    · intro m hm
      rw [eDefs_cons, List.mem_append, not_or] at hm
      exact ⟨(k2 m hm.2).1.trans (k1 m hm.1).1, (k2 m hm.2).2.trans (k1 m hm.1).2⟩
    · intro j hj
      rcases List.mem_cons.1 hj with rfl | hj
      · refine h1 s2 ?_ ?_
        · intro m hm
          have hSm := hs.1 m hm
          rw [(k2 m fun h => hS m (List.mem_append_right _ h) hSm).1,
            (k1 m fun h => hS m (List.mem_append_left _ h) hSm).1]
        · intro m hm
          exact k2 m fun h => d3 m hm m h rfl
      · exact h2 j hj

/-! ## Sorting -/

/-- The largest rank. -/
def maxRank (rank : Nat → Nat) : List Nat → Nat
  | [] => 0
  | n :: ns => max (rank n) (maxRank rank ns)

theorem le_maxRank {rank : Nat → Nat} {n : Nat} : ∀ {ns : List Nat}, n ∈ ns → rank n ≤ maxRank rank ns
  | _ :: ns, h => by
    simp only [maxRank]
    rcases List.mem_cons.1 h with rfl | h
    · omega
    · have := le_maxRank (rank := rank) h
      omega

/-- The position of a statement. -/
def key (rank : Nat → Nat) (i : EItem) : Nat :=
  match i.defs with
  | d :: _ => rank d
  | [] => maxRank rank i.now + 1

theorem defs_single {i : EItem} {n m : Nat} (hn : n ∈ i.defs) (hm : m ∈ i.defs) : n = m := by
  cases i with
  | item j => cases j <;> simp [EItem.defs, Item.defs] at hn hm <;> omega
  | reg => simp [EItem.defs] at hn hm; omega
  | inst => simp [EItem.defs] at hn hm; omega
  | mem => simp [EItem.defs] at hn hm; omega
  | read => simp [EItem.defs] at hn hm; omega

theorem key_def {rank : Nat → Nat} {i : EItem} {n : Nat} (hn : n ∈ i.defs) : key rank i = rank n := by
  unfold key
  split
  · rename_i d _ h
    rw [defs_single hn (by rw [h]; simp : d ∈ i.defs)]
  · rename_i h
    rw [h] at hn
    cases hn

theorem key_now {rank : Nat → Nat} {i : EItem} {n : Nat} (hn : n ∈ i.now)
    (hr : ∀ m ∈ i.defs, rank n < rank m) : rank n < key rank i := by
  unfold key
  split
  · rename_i d _ h
    exact hr d (by rw [h]; simp)
  · have := le_maxRank (rank := rank) hn
    omega

theorem eseq_sorted {k : EItem → Nat} : ∀ {is : List EItem} {S : Nat → Prop},
    is.Pairwise (fun a b => k a ≤ k b) →
    (∀ i ∈ is, ∀ n ∈ i.now, S n ∨ ∃ j ∈ is, n ∈ j.defs ∧ k j < k i) → ESeq S is
  | [], _, _, _ => trivial
  | i :: is, S, hp, h => by
    rw [List.pairwise_cons] at hp
    refine ⟨fun n hn => ?_, eseq_sorted hp.2 fun j hj n hn => ?_⟩
    · rcases h i (by simp) n hn with h | ⟨j, hj, h1, h2⟩
      · exact h
      · rcases List.mem_cons.1 hj with rfl | hj
        · omega
        · have := hp.1 j hj
          omega
    · rcases h j (List.mem_cons_of_mem _ hj) n hn with h | ⟨l, hl, h1, h2⟩
      · exact .inl (.inl h)
      · rcases List.mem_cons.1 hl with rfl | hl
        · exact .inl (.inr h1)
        · exact .inr ⟨l, hl, h1, h2⟩

/-- The statements of an entity without combinational loop can be settled. -/
theorem settle_loopfree {K : EItem → Snap Γ Ms → Prop} {is : List EItem} {S : Nat → Prop}
    (hL : ∀ i ∈ is, Local K i) (hS : ∀ n ∈ eDefs is, ¬ S n) (hd : (eDefs is).Nodup)
    (hr : ∀ i ∈ is, ∀ n ∈ i.now, S n ∨ n ∈ eDefs is)
    (hf : ∃ rank : Nat → Nat, ∀ i ∈ is, ∀ n ∈ i.now, ∀ m ∈ i.defs, rank n < rank m) (s : Snap Γ Ms) :
    ∃ s' : Snap Γ Ms, (∀ m, m ∉ eDefs is → s'.1.1 (fwd m) = s.1.1 (fwd m) ∧ s'.2 m = s.2 m) ∧
      ∀ i ∈ is, K i s' := by
  obtain ⟨rank, hf⟩ := hf
  let le : EItem → EItem → Bool := fun a b => decide (key rank a ≤ key rank b)
  have hperm := List.mergeSort_perm is le
  have hsort : (is.mergeSort le).Pairwise (fun a b => key rank a ≤ key rank b) := by
    have := List.pairwise_mergeSort (le := le)
      (by intro a b c h1 h2; simp only [le, decide_eq_true_eq] at *; omega)
      (by intro a b; simp only [le, Bool.or_eq_true, decide_eq_true_eq]; omega) is
    exact this.imp fun h => by simpa [le] using h
  have hmem : ∀ i, i ∈ is.mergeSort le ↔ i ∈ is := fun i => hperm.mem_iff
  have hdefs : (eDefs (is.mergeSort le)).Perm (eDefs is) := hperm.flatMap_right _
  obtain ⟨s', k1, k2⟩ := settle (K := K) (is := is.mergeSort le) (S := S)
    (fun i hi => hL i ((hmem i).1 hi)) (eseq_sorted hsort fun i hi n hn => by
      rcases hr i ((hmem i).1 hi) n hn with h | h
      · exact .inl h
      · simp only [eDefs, List.mem_flatMap] at h
        obtain ⟨j, hj, hnj⟩ := h
        refine .inr ⟨j, (hmem j).2 hj, hnj, ?_⟩
        rw [key_def hnj]
        exact key_now hn (hf i ((hmem i).1 hi) n hn))
    (fun n hn => hS n (hdefs.mem_iff.1 hn)) (hdefs.nodup_iff.2 hd) s
  exact ⟨s', fun m hm => k1 m fun h => hm (hdefs.mem_iff.1 h), fun i hi => k2 i ((hmem i).2 hi)⟩

/-! ## Statements at the start and at later instants -/

/-- A read gives a word of the memory. -/
def ReadHolds (Γ : Nat → MTy) (n : Nat) (ty : MTy) (m addr : Nat) (ρ : Env) : Prop :=
  ρ (fwd addr) ≠ [] ∧ ∀ len, Γ m = .memory ty len → toNat (ρ (fwd addr)) < len →
    ρ (fwd n) = word ty.size (ρ (fwd m)) (toNat (ρ (fwd addr)))

/-- A statement holds at the first instant. -/
def AtStart (H : Nat → Option HUnit) (Γ : Nat → MTy) (Ms : Nat → Mach) : EItem → Snap Γ Ms → Prop
  | .item i, s => ItemHolds H Γ s.1.1 (fun _ _ => false) i
  | .reg n _ _ _ initial _, s => ∀ ss, initial = some ss → ∃ v str, evalStatements ss = some v ∧
      v.asString = some str ∧ Fills str (s.1.1 (fwd n))
  | .inst n _ _ ops, s => (Ms n).Start (ops.map fun o => s.1.1 (fwd o)) (s.2 n) ∧
      s.1.1 (fwd n) = (Ms n).out (s.2 n)
  | .mem n t len _ _ initial, s => ∀ sss, initial = some sss → ∀ a ss, sss[a]? = some ss →
      ∃ v str, evalStatements ss = some v ∧ v.asString = some str ∧
        (a < len → Fills str (word t.size (s.1.1 (fwd n)) a))
  | .read n ty m addr, s => ReadHolds Γ n ty m addr s.1.1

/-- A statement holds at the instant after `p`. -/
def AfterSnap (H : Nat → Option HUnit) (Γ : Nat → MTy) (Ms : Nat → Mach) (p : Snap Γ Ms) :
    EItem → Snap Γ Ms → Prop
  | .item i, s => ItemHolds H Γ s.1.1 (fun _ _ => false) i
  | .reg n _ clock reset _ value, s =>
      (posedge clock p.1.1 s.1.1 → s.1.1 (fwd n) = regNext p.1.1 reset value) ∧
      (¬ posedge clock p.1.1 s.1.1 → s.1.1 (fwd n) = p.1.1 (fwd n))
  | .inst n _ _ ops, s => (Ms n).Next (p.2 n) (ops.map fun o => s.1.1 (fwd o)) (s.2 n) ∧
      s.1.1 (fwd n) = (Ms n).out (s.2 n)
  | .mem n t len clock writes _, s =>
      (posedge clock p.1.1 s.1.1 → ∀ ps m, memPorts (.memory t len) (Γ writes) (fwd writes) = some ps →
        storeAll p.1.1 (fun _ => false) t.size ps (word t.size (p.1.1 (fwd n))) = some m →
        ∀ a, a < len → word t.size (s.1.1 (fwd n)) a = m a) ∧
      (¬ posedge clock p.1.1 s.1.1 → s.1.1 (fwd n) = p.1.1 (fwd n))
  | .read n ty m addr, s => ReadHolds Γ n ty m addr s.1.1

/-- What makes a statement work: see `item_step` for statements of functions, the values of a
register have its width and its initial value can be evaluated, there is a machine for every
instance, and the statements of a memory store words of its width. -/
def Fine (H : Nat → Option HUnit) (HE : Nat → Option HEnt) (sig : Nat → Option (List MTy × MTy))
    (Γ : Nat → MTy) (Ms : Nat → Mach) : EItem → Prop
  | .item i => Answers H sig i.insts ∧ i.Typed Γ ∧ i.Total sig Γ
  | .reg n ty _ reset initial value => Γ n = ty ∧
      (∀ ss, initial = some ss → ∃ v str b, evalStatements ss = some v ∧ v.asString = some str ∧
        Fills str b ∧ b.length = (Γ n).size) ∧
      (Γ value).size = (Γ n).size ∧ (∀ c r, reset = some (c, r) → (Γ r).size = (Γ n).size)
  | .inst n ty u ops => Γ n = ty ∧
      (Ms n).Good H HE u (ops.map fun o => (Γ o).size) (Γ n).size
  | .mem n t len _ writes initial => Γ n = .memory t len ∧
      (∀ sss, initial = some sss → ∃ b : Bits, b.length = (Γ n).size ∧ ∀ a ss, sss[a]? = some ss →
        ∃ v str, evalStatements ss = some v ∧ v.asString = some str ∧
          (a < len → Fills str (word t.size b a))) ∧
      ∃ ps, memPorts (.memory t len) (Γ writes) (fwd writes) = some ps ∧
        ∀ (ρ : Env) (xs : Nat → Bool), Fits Γ ρ writes → ∀ m : Nat → Bits,
          (∀ a, a < len → (m a).length = t.size) → ∃ m', storeAll ρ xs t.size ps m = some m' ∧
          ∀ a, a < len → (m' a).length = t.size
  | .read n ty m addr => Γ n = ty ∧ (∃ len, Γ m = .memory ty len) ∧ (Γ addr).size ≠ 0

theorem local_item {sig : Nat → Option (List MTy × MTy)} {i : Item} {K : EItem → Snap Γ Ms → Prop}
    (hf : Fine H HE sig Γ Ms (.item i))
    (hK : ∀ s, K (.item i) s ↔ ItemHolds H Γ s.1.1 (fun _ _ => false) i) : Local K (.item i) := by
  intro s
  obtain ⟨ρ1, f1, k1, h1⟩ := item_step (fun _ _ => false) hf.1 hf.2.1 hf.2.2 s.1.2
  refine ⟨(⟨ρ1, f1⟩, s.2), fun m hm => ⟨k1 m hm, rfl⟩, fun s' hr hd => ?_⟩
  rw [hK]
  exact h1 _ hr fun m hm => (hd m hm).1

theorem ops_widths {s : Snap Γ Ms} {ops : List Nat} :
    (ops.map fun o => s.1.1 (fwd o)).map List.length = ops.map fun o => (Γ o).size := by
  rw [List.map_map]
  exact List.map_congr_left fun o _ => s.1.2 o

theorem local_read {n : Nat} {ty : MTy} {m addr : Nat} {K : EItem → Snap Γ Ms → Prop} (hn : Γ n = ty)
    (hm : ∃ len, Γ m = .memory ty len) (ha : (Γ addr).size ≠ 0)
    (hK : ∀ s, K (.read n ty m addr) s ↔ ReadHolds Γ n ty m addr s.1.1) :
    Local K (.read n ty m addr) := by
  obtain ⟨len, hlen⟩ := hm
  intro s
  have hne : ∀ s' : Snap Γ Ms, s'.1.1 (fwd addr) ≠ [] := by
    intro s' h
    have := s'.1.2 addr
    simp only [Fits, h, List.length_nil] at this
    omega
  by_cases hlt : toNat (s.1.1 (fwd addr)) < len
  · have hw : (word ty.size (s.1.1 (fwd m)) (toNat (s.1.1 (fwd addr)))).length = (Γ n).size := by
      rw [hn]
      refine word_length (len := len) ?_ hlt
      rw [s.1.2 m, hlen]
      rfl
    refine ⟨s.set n _ hw (s.2 n), fun m hm => s.set_ne _ _ _ (by simpa [EItem.defs] using hm),
      fun s' hr hd => ?_⟩
    rw [hK]
    refine ⟨hne s', fun len' _ _ => ?_⟩
    rw [(hd n (by simp [EItem.defs])).1, (s.set_self _ _ _ _).1, hr m (by simp [EItem.now]),
      hr addr (by simp [EItem.now])]
  · refine ⟨s, fun _ _ => ⟨rfl, rfl⟩, fun s' hr hd => ?_⟩
    rw [hK]
    refine ⟨hne s', fun len' hl' h => ?_⟩
    rw [hlen] at hl'
    cases hl'
    rw [hr addr (by simp [EItem.now])] at h
    exact absurd h hlt

theorem local_start {sig : Nat → Option (List MTy × MTy)} {i : EItem} (hf : Fine H HE sig Γ Ms i) :
    Local (AtStart H Γ Ms) i := by
  cases i with
  | item i => exact local_item hf fun _ => Iff.rfl
  | reg n ty clock reset initial value =>
    obtain ⟨h1, h2, _, _⟩ := hf
    intro s
    cases initial with
    | none =>
      refine ⟨s, fun _ _ => ⟨rfl, rfl⟩, fun s' _ _ => ?_⟩
      intro ss h
      cases h
    | some ss =>
      obtain ⟨v, str, b, q1, q2, q3, q4⟩ := h2 ss rfl
      refine ⟨s.set n b q4 (s.2 n), fun m hm => s.set_ne _ _ _ (by simpa [EItem.defs] using hm),
        fun s' _ hd => ?_⟩
      intro ss' h
      cases h
      refine ⟨v, str, q1, q2, ?_⟩
      rw [(hd n (by simp [EItem.defs])).1, (s.set_self _ _ _ _).1]
      exact q3
  | inst n ty u ops =>
    obtain ⟨_, hg⟩ := hf
    intro s
    obtain ⟨x, hx⟩ := hg.start _ (ops_widths (s := s))
    refine ⟨s.set n ((Ms n).out x) (hg.width x) x,
      fun m hm => s.set_ne _ _ _ (by simpa [EItem.defs] using hm), fun s' hr hd => ?_⟩
    have e := hd n (by simp [EItem.defs])
    have e' := s.set_self n ((Ms n).out x) (hg.width x) x
    refine ⟨?_, by rw [e.1, e'.1, e.2, e'.2]⟩
    have hm : (ops.map fun o => s'.1.1 (fwd o)) = ops.map fun o => s.1.1 (fwd o) :=
      List.map_congr_left fun o ho => hr o ho
    rw [e.2, e'.2, hm]
    exact hx
  | mem n t len clock writes initial =>
    obtain ⟨h1, h2, _⟩ := hf
    intro s
    cases initial with
    | none =>
      refine ⟨s, fun _ _ => ⟨rfl, rfl⟩, fun s' _ _ => ?_⟩
      intro ss h
      cases h
    | some sss =>
      obtain ⟨b, q1, q2⟩ := h2 sss rfl
      refine ⟨s.set n b q1 (s.2 n), fun m hm => s.set_ne _ _ _ (by simpa [EItem.defs] using hm),
        fun s' _ hd => ?_⟩
      intro ss' h
      cases h
      rw [(hd n (by simp [EItem.defs])).1, (s.set_self _ _ _ _).1]
      exact q2
  | read n ty m addr => exact local_read hf.1 hf.2.1 hf.2.2 fun _ => Iff.rfl

theorem local_next {sig : Nat → Option (List MTy × MTy)} {p : Snap Γ Ms} {i : EItem}
    (hf : Fine H HE sig Γ Ms i) : Local (AfterSnap H Γ Ms p) i := by
  cases i with
  | item i => exact local_item hf fun _ => Iff.rfl
  | reg n ty clock reset initial value =>
    obtain ⟨h1, _, h3, h4⟩ := hf
    intro s
    by_cases hp : posedge clock p.1.1 s.1.1
    · have hw : (regNext p.1.1 reset value).length = (Γ n).size := by
        unfold regNext
        split
        · exact (p.1.2 value).trans h3
        · split
          · exact (p.1.2 _).trans (h4 _ _ rfl)
          · exact (p.1.2 value).trans h3
      refine ⟨s.set n _ hw (s.2 n), fun m hm => s.set_ne _ _ _ (by simpa [EItem.defs] using hm),
        fun s' hr hd => ⟨fun _ => ?_, fun h => ?_⟩⟩
      · rw [(hd n (by simp [EItem.defs])).1, (s.set_self _ _ _ _).1]
      · exact absurd ⟨hp.1, (hr clock (by simp [EItem.now])).trans hp.2⟩ h
    · have hw : (p.1.1 (fwd n)).length = (Γ n).size := p.1.2 n
      refine ⟨s.set n (p.1.1 (fwd n)) hw (s.2 n),
        fun m hm => s.set_ne _ _ _ (by simpa [EItem.defs] using hm),
        fun s' hr hd => ⟨fun h => ?_, fun _ => ?_⟩⟩
      · exact absurd ⟨h.1, (hr clock (by simp [EItem.now])).symm.trans h.2⟩ hp
      · rw [(hd n (by simp [EItem.defs])).1, (s.set_self _ _ _ _).1]
  | inst n ty u ops =>
    obtain ⟨_, hg⟩ := hf
    intro s
    obtain ⟨x, hx⟩ := hg.next (p.2 n) _ (ops_widths (s := s))
    refine ⟨s.set n ((Ms n).out x) (hg.width x) x,
      fun m hm => s.set_ne _ _ _ (by simpa [EItem.defs] using hm), fun s' hr hd => ?_⟩
    have e := hd n (by simp [EItem.defs])
    have e' := s.set_self n ((Ms n).out x) (hg.width x) x
    refine ⟨?_, by rw [e.1, e'.1, e.2, e'.2]⟩
    have hm : (ops.map fun o => s'.1.1 (fwd o)) = ops.map fun o => s.1.1 (fwd o) :=
      List.map_congr_left fun o ho => hr o ho
    rw [e.2, e'.2, hm]
    exact hx
  | mem n t len clock writes initial =>
    obtain ⟨h1, _, ps, h3, h4⟩ := hf
    intro s
    have hpl : (p.1.1 (fwd n)).length = t.size * len := by
      rw [p.1.2 n, h1]; rfl
    by_cases hp : posedge clock p.1.1 s.1.1
    · obtain ⟨m', k1, k2⟩ := h4 p.1.1 (fun _ => false) (p.1.2 writes) (word t.size (p.1.1 (fwd n)))
        fun a ha => word_length hpl ha
      have hw : (words m' len).length = (Γ n).size := by
        rw [words_length k2, h1]; rfl
      refine ⟨s.set n _ hw (s.2 n), fun m hm => s.set_ne _ _ _ (by simpa [EItem.defs] using hm),
        fun s' hr hd => ⟨fun _ ps' m hps hm a ha => ?_, fun h => ?_⟩⟩
      · rw [h3] at hps
        cases hps
        rw [k1] at hm
        cases hm
        rw [(hd n (by simp [EItem.defs])).1, (s.set_self _ _ _ _).1]
        exact word_words k2 ha
      · exact absurd ⟨hp.1, (hr clock (by simp [EItem.now])).trans hp.2⟩ h
    · have hw : (p.1.1 (fwd n)).length = (Γ n).size := p.1.2 n
      refine ⟨s.set n (p.1.1 (fwd n)) hw (s.2 n),
        fun m hm => s.set_ne _ _ _ (by simpa [EItem.defs] using hm),
        fun s' hr hd => ⟨fun h => ?_, fun _ => ?_⟩⟩
      · exact absurd ⟨h.1, (hr clock (by simp [EItem.now])).symm.trans h.2⟩ hp
      · rw [(hd n (by simp [EItem.defs])).1, (s.set_self _ _ _ _).1]
  | read n ty m addr => exact local_read hf.1 hf.2.1 hf.2.2 fun _ => Iff.rfl

/-! ## The machine of an entity -/

/-- The machine of an entity from machines of its instances. -/
def machine (H : Nat → Option HUnit) (h : HEnt) (Ms : Nat → Mach) : Mach where
  S := Snap h.types Ms
  Start ins s := ins = h.inputs.map (fun i => s.1.1 (fwd i.1)) ∧
    ∀ i ∈ h.items, AtStart H h.types Ms i s
  Next p ins s := ins = h.inputs.map (fun i => s.1.1 (fwd i.1)) ∧
    ∀ i ∈ h.items, AfterSnap H h.types Ms p i s
  out s := s.1.1 (fwd h.output)

theorem machine_good {sig : Nat → Option (List MTy × MTy)} {u : Nat} {h : HEnt}
    (hu : HE u = some h) (hne : ∀ n, Nonempty (Ms n).S)
    (hfine : ∀ i ∈ h.items, Fine H HE sig h.types Ms i)
    (hty : ∀ p ∈ h.inputs, h.types p.1 = p.2)
    (hd : (h.inputs.map (·.1) ++ eDefs h.items).Nodup)
    (hr : ∀ i ∈ h.items, ∀ n ∈ i.now, n ∈ h.inputs.map (·.1) ∨ n ∈ eDefs h.items)
    (hf : LoopFree h) :
    (machine H h Ms).Good H HE u (h.inputs.map fun p => p.2.size) (h.types h.output).size := by
  obtain ⟨d1, d2, d3⟩ := List.nodup_append.1 hd
  have hbase : ∀ ins : List Bits, ins.map List.length = (h.inputs.map fun p => p.2.size) →
      ∃ s : Snap h.types Ms, ins = h.inputs.map fun p => s.1.1 (fwd p.1) := by
    intro ins hins
    obtain ⟨ρ, hρ, he⟩ := inputs_hold (Γ := h.types) d1 hty hins
    exact ⟨(⟨ρ, hρ⟩, fun n => Classical.choice (hne n)), he⟩
  have hS : ∀ n ∈ eDefs h.items, ¬ n ∈ h.inputs.map (·.1) := fun n hn hn' => d3 n hn' n hn rfl
  have hkeep : ∀ {ins : List Bits} {s s' : Snap h.types Ms},
      ins = (h.inputs.map fun p => s.1.1 (fwd p.1)) →
      (∀ m, m ∉ eDefs h.items → s'.1.1 (fwd m) = s.1.1 (fwd m) ∧ s'.2 m = s.2 m) →
      ins = h.inputs.map fun p => s'.1.1 (fwd p.1) := by
    intro ins s s' he hk
    rw [he]
    exact List.map_congr_left fun p hp =>
      ((hk p.1 fun h => hS p.1 h (List.mem_map.2 ⟨p, hp, rfl⟩)).1).symm
  refine ⟨?_, ?_, fun s => s.1.2 h.output, ?_⟩
  · intro ins hins
    obtain ⟨s, hs⟩ := hbase ins hins
    obtain ⟨s', k1, k2⟩ := settle_loopfree (K := AtStart H h.types Ms)
      (fun i hi => local_start (hfine i hi)) hS d2 hr hf s
    exact ⟨s', hkeep hs k1, k2⟩
  · intro p ins hins
    obtain ⟨s, hs⟩ := hbase ins hins
    obtain ⟨s', k1, k2⟩ := settle_loopfree (K := AfterSnap H h.types Ms p)
      (fun i hi => local_next (hfine i hi)) hS d2 hr hf s
    exact ⟨s', hkeep hs k1, k2⟩
  · intro ins s h0 hn
    refine .mk (ρ := fun t => (s t).1.1) (xs := fun _ _ _ => false) hu (fun t => (s t).1.2) ?_ ?_
      (fun t => rfl)
    · intro t
      cases t with
      | zero => exact h0.1
      | succ t => exact (hn t).1
    · intro i hi
      have hfi := hfine i hi
      cases i with
      | item i =>
        refine .item fun t => ?_
        cases t with
        | zero => exact h0.2 _ hi
        | succ t => exact (hn t).2 _ hi
      | reg n ty clock reset initial value =>
        exact .reg hfi.1 (h0.2 _ hi) (fun t => ((hn t).2 _ hi).1) (fun t => ((hn t).2 _ hi).2)
      | inst n ty u' ops =>
        refine .inst hfi.1 ?_
        have hrun := hfi.2.run (fun t => ops.map fun o => (s t).1.1 (fwd o)) (fun t => (s t).2 n)
          (h0.2 _ hi).1 (fun t => ((hn t).2 _ hi).1)
        have : (fun t => (s t).1.1 (fwd n)) = fun t => (Ms n).out ((s t).2 n) := by
          funext t
          cases t with
          | zero => exact (h0.2 _ hi).2
          | succ t => exact ((hn t).2 _ hi).2
        rw [this]
        exact hrun
      | mem n t len clock writes initial =>
        obtain ⟨g1, _, ps, g3, g4⟩ := hfi
        refine .mem g1 g3 (h0.2 _ hi) (fun t' => ?_) (fun t => ((hn t).2 _ hi).2)
        have hl : ((s t').1.1 (fwd n)).length = t.size * len := by
          rw [(s t').1.2 n, g1]; rfl
        obtain ⟨m', k1, _⟩ := g4 (s t').1.1 (fun _ => false) ((s t').1.2 writes) _
          fun a ha => word_length hl ha
        exact ⟨m', k1, fun hp => ((hn t').2 _ hi).1 hp ps m' g3 k1⟩
      | read n ty m addr =>
        obtain ⟨g1, ⟨len, g2⟩, _⟩ := hfi
        refine .read (len := len) g1 g2 fun t => ?_
        cases t with
        | zero => exact ⟨(h0.2 _ hi).1, (h0.2 _ hi).2 len g2⟩
        | succ t => exact ⟨((hn t).2 _ hi).1, ((hn t).2 _ hi).2 len g2⟩

/-- A good machine has a history for all inputs. -/
theorem Mach.Good.history {M : Mach} {u : Nat} {ws : List Nat} {w : Nat} (h : M.Good H HE u ws w)
    (ins : Nat → List Bits) (hins : ∀ t, (ins t).map List.length = ws) :
    ∃ out, EProduces H HE u ins out ∧ ∀ t, (out t).length = w := by
  obtain ⟨s0, hs0⟩ := h.start (ins 0) (hins 0)
  have hnext : ∀ s t, ∃ s', M.Next s (ins (t + 1)) s' := fun s t => h.next s _ (hins (t + 1))
  let run : Nat → M.S := fun t => Nat.rec s0 (fun t s => (hnext s t).choose) t
  exact ⟨fun t => M.out (run t), h.run ins run hs0 fun t => (hnext (run t) t).choose_spec,
    fun t => h.width _⟩

end Spade.Entity
