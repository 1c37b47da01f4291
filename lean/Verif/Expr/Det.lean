import Verif.Expr.Props
/-! # Evaluation is deterministic -/
namespace Spade.Expr
open Spade.Verilog Spade.Codegen Spade.Lower
open Spade.Match (Val Matches)

/-- Uses that two values are equal. -/
macro "same" h:ident : tactic => `(tactic|
  first
  | subst $h:ident
  | (simp only [Val.int.injEq, Val.tup.injEq, Val.bool.injEq, reduceCtorEq] at $h:ident; subst $h:ident)
  | (simp at $h:ident; done))

theorem bools_inj' {as bs : List Bool} (h : bools as = bools bs) : as = bs := by
  simp only [bools, Val.tup.injEq] at h
  exact bools_inj h

theorem unVal_unique {op ty v w w'} (h : UnVal op ty v w) (h' : UnVal op ty v w') : w = w' := by
  cases h <;> cases h' <;> rfl

theorem member_unique {v k w w'} (h : Member v k w) (h' : Member v k w') : w = w' := by
  induction h generalizing w' with
  | tup h => cases h' with
    | tup h' => rw [h] at h'; exact Option.some.inj h'
  | view _ ih => cases h' with
    | view h' => rw [ih h']

theorem intrVal_unique {i ts ty vs w w'} (ht : IntrTy i ts ty) (h : IntrVal i ts ty vs w)
    (h' : IntrVal i ts ty vs w') : w = w' := by
  cases ht with
  | transmute hs hr =>
    cases h with
    | transmute a b => cases h' with
      | transmute a' b' => exact enc_unique (hr _ _ _ _ a a' b) b'
  | order hc1 hc2 hn =>
    cases h with
    | order => cases h' with
      | order => rfl
      | eqSame => exact absurd rfl hc1
      | eqDiff => exact absurd rfl hc1
      | neSame => exact absurd rfl hc2
      | neDiff => exact absurd rfl hc2
    | eqSame => exact absurd rfl hc1
    | eqDiff => exact absurd rfl hc1
    | neSame => exact absurd rfl hc2
    | neDiff => exact absurd rfl hc2
  | eq _ =>
    cases h with
    | order hc => exact absurd rfl hc
    | eqSame => cases h' with
      | order hc => exact absurd rfl hc
      | eqSame => rfl
      | eqDiff hd => exact absurd rfl hd
    | eqDiff hd => cases h' with
      | order hc => exact absurd rfl hc
      | eqSame => exact absurd rfl hd
      | eqDiff => rfl
  | ne _ =>
    cases h with
    | order _ hc => exact absurd rfl hc
    | neSame => cases h' with
      | order _ hc => exact absurd rfl hc
      | neSame => rfl
      | neDiff hd => exact absurd rfl hd
    | neDiff hd => cases h' with
      | order _ hc => exact absurd rfl hc
      | neSame => exact absurd rfl hd
      | neDiff => rfl
  | bitNot _ =>
    generalize hvs : vs = us at h'
    cases h with
    | bitNot => cases h' with
      | bitNot =>
        simp only [List.cons.injEq, and_true] at hvs
        rw [bools_inj' hvs]
  | bitAnd _ =>
    generalize hvs : vs = us at h'
    cases h with
    | bitAnd => cases h' with
      | bitAnd =>
        simp only [List.cons.injEq, and_true] at hvs
        rw [bools_inj' hvs.1, bools_inj' hvs.2]
  | bitOr _ =>
    generalize hvs : vs = us at h'
    cases h with
    | bitOr => cases h' with
      | bitOr =>
        simp only [List.cons.injEq, and_true] at hvs
        rw [bools_inj' hvs.1, bools_inj' hvs.2]
  | bitXor _ =>
    generalize hvs : vs = us at h'
    cases h with
    | bitXor => cases h' with
      | bitXor =>
        simp only [List.cons.injEq, and_true] at hvs
        rw [bools_inj' hvs.1, bools_inj' hvs.2]
  | reduceAnd _ =>
    generalize hvs : vs = us at h'
    cases h with
    | reduceAnd => cases h' with
      | reduceAnd =>
        simp only [List.cons.injEq, and_true] at hvs
        rw [bools_inj' hvs]
  | reduceOr _ =>
    generalize hvs : vs = us at h'
    cases h with
    | reduceOr => cases h' with
      | reduceOr =>
        simp only [List.cons.injEq, and_true] at hvs
        rw [bools_inj' hvs]
  | reduceXor _ =>
    generalize hvs : vs = us at h'
    cases h with
    | reduceXor => cases h' with
      | reduceXor =>
        simp only [List.cons.injEq, and_true] at hvs
        rw [bools_inj' hvs]
  | trunc => cases h; cases h'; rfl
  | sext => cases h; cases h'; rfl
  | zext => cases h; cases h'; rfl
  | concat => cases h; cases h'; rfl
  | combDiv => cases h; cases h'; rfl
  | combMod => cases h; cases h'; rfl

/-- An expression of a program that type inference accepts has at most one value. -/
theorem ev_unique {P : Prog} (hP : P.Ok) {env : Vars} {e : Expr} {v : Val} (h : Ev P env e v)
    {Γ : Nat → MTy} {w : Val} : e.Ok P.sig Γ → Ev P env e w → v = w :=
  Ev.rec (P := P)
    (motive_1 := fun env e v _ => ∀ (Γ : Nat → MTy) (w : Val), e.Ok P.sig Γ → Ev P env e w → v = w)
    (motive_2 := fun env es vs _ => ∀ (Γ : Nat → MTy) (ws : List Val), Exprs.Ok P.sig Γ es →
      Evs P env es ws → vs = ws)
    (motive_3 := fun env ss ρ _ => ∀ (Γ : Nat → MTy) (ρ' : Vars), Stms.Ok P.sig Γ ss →
      EvStms P env ss ρ' → ρ = ρ')
    (motive_4 := fun env as v w _ => ∀ (Γ : Nat → MTy) (t ty : MTy) (w' : Val),
      Arms.Ok P.sig Γ t ty as → EvArms P env as v w' → w = w')
    (fun h Γ w ok h' => by
      cases h' with
      | var h' => exact by rw [h] at h'; exact Option.some.inj h')
    (fun  Γ w ok h' => by
      cases h' with
      | int => exact rfl)
    (fun  Γ w ok h' => by
      cases h' with
      | bool => exact rfl)
    (fun a b c iha ihb Γ w ok h' => by
      cases h' with
      | bin a' b' c' =>
        simp only [Expr.Ok] at ok
        have e1 := iha _ _ ok.2.2.2.1 a'; same e1
        have e1 := ihb _ _ ok.2.2.2.2 b'; same e1
        rw [c] at c'; cases c'; rfl)
    (fun a b iha Γ w ok h' => by
      cases h' with
      | un a' b' =>
        simp only [Expr.Ok] at ok
        have e1 := iha _ _ ok.2 a'; same e1
        exact unVal_unique b b')
    (fun a iha Γ w ok h' => by
      cases h' with
      | tuple a' =>
        simp only [Expr.Ok] at ok
        rw [iha _ _ ok.2 a'])
    (fun a b iha Γ w ok h' => by
      cases h' with
      | proj a' b' =>
        simp only [Expr.Ok] at ok
        have e1 := iha _ _ ok.2.2 a'; same e1
        exact member_unique b b')
    (fun a b c iha Γ w ok h' => by
      cases h' with
      | field a' b' c' =>
        simp only [Expr.Ok] at ok
        have e1 := iha _ _ ok.2.2 a'; same e1
        cases b.2 _ b'.1
        exact member_unique c c')
    (fun a iha Γ w ok h' => by
      cases h' with
      | cast a' =>
        simp only [Expr.Ok] at ok
        exact iha _ _ ok.2 a')
    (fun a iha Γ w ok h' => by
      cases h' with
      | array a' =>
        simp only [Expr.Ok] at ok
        rw [iha _ _ ok.2 a'])
    (fun a iha Γ w ok h' => by
      cases h' with
      | rep a' =>
        simp only [Expr.Ok] at ok
        rw [iha _ _ ok.2 a'])
    (fun a b c iha ihb Γ w ok h' => by
      cases h' with
      | elem a' b' c' =>
        simp only [Expr.Ok] at ok
        have e1 := iha _ _ ok.2.2.1 a'; same e1
        have := ihb _ _ ok.2.2.2 b'
        simp only [Val.int.injEq, Int.natCast_inj] at this
        subst this
        rw [c] at c'; exact Option.some.inj c')
    (fun a iha Γ w ok h' => by
      cases h' with
      | range a' =>
        simp only [Expr.Ok] at ok
        have e1 := iha _ _ ok.2.2 a'; same e1
        rfl)
    (fun a b iha ihb Γ w ok h' => by
      cases h' with
      | block a' b' =>
        simp only [Expr.Ok] at ok
        have e1 := iha _ _ ok.1 a'; same e1
        exact ihb _ _ ok.2 b')
    (fun a iha Γ w ok h' => by
      cases h' with
      | unitBlock a' => exact rfl)
    (fun a b iha ihb Γ w ok h' => by
      cases h' with
      | iteTrue a' b' =>
        simp only [Expr.Ok] at ok
        exact ihb _ _ ok.2.2.2.2.1 b'
      | iteFalse a' b' =>
        simp only [Expr.Ok] at ok
        have e1 := iha _ _ ok.2.2.2.1 a'; same e1)
    (fun a b iha ihb Γ w ok h' => by
      cases h' with
      | iteTrue a' b' =>
        simp only [Expr.Ok] at ok
        have e1 := iha _ _ ok.2.2.2.1 a'; same e1
      | iteFalse a' b' =>
        simp only [Expr.Ok] at ok
        exact ihb _ _ ok.2.2.2.2.2 b')
    (fun a b iha ihb Γ w ok h' => by
      cases h' with
      | «match» a' b' =>
        simp only [Expr.Ok] at ok
        have e1 := iha _ _ ok.1 a'; same e1
        exact ihb _ _ _ _ ok.2.2 b')
    (fun a iha Γ w ok h' => by
      cases h' with
      | variant a' =>
        simp only [Expr.Ok] at ok
        rw [iha _ _ ok.2 a'])
    (fun a iha Γ w ok h' => by
      cases h' with
      | struct a' =>
        simp only [Expr.Ok] at ok
        rw [iha _ _ ok.2 a'])
    (fun a b iha Γ w ok h' => by
      cases h' with
      | intr a' b' =>
        simp only [Expr.Ok] at ok
        have e1 := iha _ _ ok.2 a'; same e1
        exact intrVal_unique ok.1 b b')
    (fun a b c ihb ihc Γ w ok h' => by
      cases h' with
      | unit a' b' c' =>
        simp only [Expr.Ok] at ok
        have := Option.some.inj (a.symm.trans a'); subst this
        have e1 := ihb _ _ ok.2 b'; same e1
        exact ihc _ _ (hP _ _ a).2 c')
    (fun  Γ w ok h' => by
      cases h' with
      | nil => exact rfl)
    (fun a b iha ihb Γ w ok h' => by
      cases h' with
      | cons a' b' =>
        simp only [Exprs.Ok] at ok
        rw [iha _ _ ok.1 a', ihb _ _ ok.2 b'])
    (fun  Γ w ok h' => by
      cases h' with
      | nil => exact rfl)
    (fun a b c iha ihc Γ w ok h' => by
      cases h' with
      | bind a' b' c' =>
        simp only [Stms.Ok] at ok
        have e1 := iha _ _ ok.2.2.1 a'; same e1
        exact ihc _ _ ok.2.2.2 c')
    (fun a iha Γ w ok h' => by
      cases h' with
      | expr a' =>
        simp only [Stms.Ok] at ok
        exact iha _ _ ok.2 a')
    (fun a iha Γ w ok h' => by
      cases h' with
      | assert a' =>
        simp only [Stms.Ok] at ok
        exact iha _ _ ok.2.2 a')
    (fun a iha Γ w ok h' => by
      cases h' with
      | decl a' =>
        simp only [Stms.Ok] at ok
        exact iha _ _ ok a')
    (fun a b ihb Γ t ty w ok h' => by
      cases h' with
      | plain a' b' =>
        simp only [Arms.Ok] at ok
        exact ihb _ _ ok.2.2.2.1 b'
      | next a' b' => exact absurd a a')
    (fun a b c ihb ihc Γ t ty w ok h' => by
      cases h' with
      | guarded a' b' c' =>
        simp only [Arms.Ok] at ok
        exact ihc _ _ ok.2.2.2.2.2.1 c'
      | next a' b' => exact absurd a a'
      | nextGuard a' b' c' =>
        simp only [Arms.Ok] at ok
        have e1 := ihb _ _ ok.2.2.2.1 b'; same e1)
    (@fun _ arm as _ _ a b ihb Γ t ty w ok h' => by
      have ok' : Arms.Ok P.sig Γ t ty as := by
        cases arm with
        | plain => simp only [Arms.Ok] at ok; exact ok.2.2.2.2
        | guarded => simp only [Arms.Ok] at ok; exact ok.2.2.2.2.2.2
      cases h' with
      | plain a' b' => exact absurd a' a
      | guarded a' b' c' => exact absurd a' a
      | next a' b' => exact ihb _ _ _ _ ok' b'
      | nextGuard a' b' c' => exact absurd a' a)
    (fun a b c ihb ihc Γ t ty w ok h' => by
      cases h' with
      | guarded a' b' c' =>
        simp only [Arms.Ok] at ok
        have e1 := ihb _ _ ok.2.2.2.1 b'; same e1
      | next a' b' => exact absurd a a'
      | nextGuard a' b' c' =>
        simp only [Arms.Ok] at ok
        exact ihc _ _ _ _ ok.2.2.2.2.2.2 c')
    h Γ w

end Spade.Expr
