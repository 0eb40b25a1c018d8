import Verif.Tower
import Verif.TrigInv
import Verif.QuotNormal
import Verif.QLaurent
import Verif.SolveNum

set_option autoImplicit false
set_option linter.unusedSectionVars false
set_option linter.unusedSimpArgs false
set_option linter.unusedVariables false

/-!
# Products of two powers of sine, cosine and tangent

Helpers for C76: the loop in `contract`, the results of `contractTrigFctPowers`.
-/

namespace Tsym

open Expr

variable {D : Type} [Flt D] [LawfulFlt D] {cfg : Cfg D}

/-! ## Loops with conditions -/

/-- The rounds of a loop. -/
inductive RoundsS (cfg : Cfg D) (S : Asg → Prop) {St R : Type} (f : Eng D → St → M D (St ⊕ R)) (r : R) : St → Prop
  | done (s : St) : Rs cfg S (fun E => f E s) (.inr r) → RoundsS cfg S f r s
  | next (s s' : St) : Rs cfg S (fun E => f E s) (.inl s') → RoundsS cfg S f r s' → RoundsS cfg S f r s

theorem rs_loop {S : Asg → Prop} {St R : Type} {f : Eng D → St → M D (St ⊕ R)} {r : R} {s : St} (h : RoundsS cfg S f r s) :
    Rs cfg S (fun E => M.loop E.steps (f E) s) r := by
  suffices ∃ N K cs, (∀ c ∈ cs, ∀ σ : Asg, S σ → Cond.holds σ c) ∧ ∀ n, N ≤ n → ∀ m, K ≤ m → M.loop m (f (eng cfg n)) s = Except.ok (r, cs) by
    obtain ⟨N, K, cs, hcs, h⟩ := this
    refine ⟨max N K, cs, hcs, fun n hn => ?_⟩
    dsimp only
    rw [eng_steps]
    exact h n (by omega) n (by omega)
  induction h with
  | done s h =>
    obtain ⟨N, cs, hcs, hN⟩ := h
    refine ⟨N, 1, cs ++ [], by simpa using hcs, fun n hn m hm => ?_⟩
    obtain ⟨k, rfl⟩ : ∃ k, m = k + 1 := ⟨m - 1, by omega⟩
    exact M.bind_ok.2 ⟨_, cs, [], hN n hn, rfl, rfl⟩
  | next s s' h _ ih =>
    obtain ⟨N, cs, hcs, hN⟩ := h
    obtain ⟨N', K, ds, hds, hK⟩ := ih
    refine ⟨max N N', K + 1, cs ++ ds, fun c hc => (List.mem_append.1 hc).elim (hcs c) (hds c), fun n hn m hm => ?_⟩
    obtain ⟨k, rfl⟩ : ∃ k, m = k + 1 := ⟨m - 1, by omega⟩
    exact M.bind_ok.2 ⟨_, cs, ds, hN n (by omega), hK n (by omega) k (by omega), rfl⟩

theorem Rs.capture {S : Asg → Prop} {α : Type} {f : Eng D → M D α} {a : α} (h : Rs cfg S f a) :
    ∃ cs, (∀ c ∈ cs, ∀ σ : Asg, S σ → Cond.holds σ c) ∧ Tot cfg (fun E => M.capture (f E)) (a, cs) := by
  obtain ⟨N, cs, h1, hN⟩ := h
  exact ⟨cs, h1, N, fun n hn => capture_ok (hN n hn)⟩

theorem rs_emits {S : Asg → Prop} {cs : List (Cond D)} (h : ∀ c ∈ cs, ∀ σ : Asg, S σ → Cond.holds σ c) :
    Rs cfg S (fun _ => M.emit cs) () := ⟨0, cs, h, fun _ _ => rfl⟩

theorem tot_within {α : Type} {mp : List (Sym × Expr D)} {f : Eng D → M D α} {a : α} (h : Tot cfg f a) :
    Tot cfg (fun E => M.withinM mp (f E)) a :=
  tot_bind (tot_capture h) (tot_bind tot_emit (tot_pure _))

section contract

variable {S : Asg → Prop} {check : Expr D → Expr D → M D Bool} {simpl : Eng D → Expr D → Expr D → M D (List (Expr D))} {x y : Expr D}

/-- Two elements that are not changed. -/
theorem rs_round_same (hk : check x y = pure true) (hx : Exact x) (hy : Exact y) (h : Rs cfg S (fun E => simpl E x y) [x, y])
    (pre mid rest : List (Expr D)) (fd ch : Bool) :
    Rs cfg S (fun E => contractStep check (simpl E) ⟨pre, x, mid, y :: rest, fd, ch⟩) (.inl ⟨pre, x, mid ++ [y], rest, fd, ch⟩) := by
  obtain ⟨cs, hcs, hC⟩ := h.capture
  have e : areEqual [x, y] [x, y] = true := by rw [areEqual_pair, isEqual_refl hx, isEqual_refl hy]; rfl
  simp only [contractStep, hk]
  refine rs_bind (Tot.rs (tot_pure true)) ?_
  simp only [if_true]
  refine rs_bind (Tot.rs hC) ?_
  simp only [e, if_true]
  exact Tot.rs (tot_pure _)

/-- Two elements that are replaced. -/
theorem rs_round_new (hk : check x y = pure true) {r : Expr D} {rs : List (Expr D)} (hne : areEqual (r :: rs) [x, y] = false)
    (h : Rs cfg S (fun E => simpl E x y) (r :: rs)) (pre mid rest : List (Expr D)) (fd ch : Bool) :
    Rs cfg S (fun E => contractStep check (simpl E) ⟨pre, x, mid, y :: rest, fd, ch⟩) (.inl ⟨pre, r, [], rs ++ mid ++ rest, true, true⟩) := by
  obtain ⟨cs, hcs, hC⟩ := h.capture
  simp only [contractStep, hk]
  refine rs_bind (Tot.rs (tot_pure true)) ?_
  simp only [if_true]
  refine rs_bind (Tot.rs hC) ?_
  simp only [hne, Bool.false_eq_true, if_false]
  exact rs_bind (rs_emits hcs) (Tot.rs (tot_pure _))

/-- From the end of the list to the start. -/
theorem rs_round_found (pre mid : List (Expr D)) (x : Expr D) (ch : Bool) :
    Rs cfg S (fun E => contractStep check (simpl E) ⟨pre, x, mid, [], true, ch⟩) (.inl ⟨pre, x, [], mid, false, ch⟩) := by
  simp only [contractStep, if_true]
  exact Tot.rs (tot_pure _)

theorem rs_round_mid (pre ms : List (Expr D)) (x m : Expr D) (ch : Bool) :
    Rs cfg S (fun E => contractStep check (simpl E) ⟨pre, x, m :: ms, [], false, ch⟩) (.inl ⟨pre ++ [x], m, [], ms, false, ch⟩) := by
  simp only [contractStep, Bool.false_eq_true, if_false]
  exact Tot.rs (tot_pure _)

theorem rs_round_end (pre : List (Expr D)) (x : Expr D) :
    Rs cfg S (fun E => contractStep check (simpl E) ⟨pre, x, [], [], false, false⟩) (.inr (pre ++ [x])) := by
  simp only [contractStep, Bool.false_eq_true, if_false]
  exact Tot.rs (tot_pure _)

theorem rounds_same (hk : check x y = pure true) (hx : Exact x) (hy : Exact y) (h : Rs cfg S (fun E => simpl E x y) [x, y]) :
    RoundsS cfg S (fun E => contractStep check (simpl E)) [x, y] ⟨[], x, [], [y], false, false⟩ := by
  refine .next _ _ (rs_round_same hk hx hy h _ _ _ _ _) (.next _ _ (rs_round_mid _ _ _ _ _) (.done _ ?_))
  exact rs_round_end _ _

/-- contract for two factors that stay. -/
theorem rs_contract_same (hk : check x y = pure true) (hx : Exact x) (hy : Exact y) (h : Rs cfg S (fun E => simpl E x y) [x, y]) :
    Rs cfg S (fun E => contract E check (simpl E) [x, y]) [x, y] := by
  unfold contract
  simp only [contractStart]
  exact rs_loop (f := fun E => contractStep check (simpl E)) (rounds_same hk hx hy h)

/-- contract for two factors that become one. -/
theorem rs_contract_one (hk : check x y = pure true) {r : Expr D} (h : Rs cfg S (fun E => simpl E x y) [r]) :
    Rs cfg S (fun E => contract E check (simpl E) [x, y]) [r] := by
  unfold contract
  simp only [contractStart]
  refine rs_loop (f := fun E => contractStep check (simpl E)) ?_
  have hne : areEqual [r] [x, y] = false := by simp [areEqual]
  refine .next _ _ (rs_round_new hk hne h _ _ _ _ _) (.next _ _ (rs_round_found _ _ _ _) (.next _ ⟨[], r, [], [], false, false⟩ ?_ (.done _ ?_)))
  · simp only [contractStep, Bool.false_eq_true, if_false, if_true]
    exact Tot.rs (tot_pure _)
  · exact rs_round_end _ _

/-- contract for two factors that become two others. -/
theorem rs_contract_two (hk : check x y = pure true) {r t : Expr D} (hr : Exact r) (ht : Exact t) (hne : areEqual [r, t] [x, y] = false)
    (h : Rs cfg S (fun E => simpl E x y) [r, t]) (hk' : check r t = pure true) (h' : Rs cfg S (fun E => simpl E r t) [r, t]) :
    Rs cfg S (fun E => contract E check (simpl E) [x, y]) [r, t] := by
  unfold contract
  simp only [contractStart]
  refine rs_loop (f := fun E => contractStep check (simpl E)) ?_
  refine .next _ _ (rs_round_new hk hne h _ _ _ _ _) ?_
  refine .next _ _ (rs_round_same hk' hr ht h' _ _ _ _ _) (.next _ _ (rs_round_found _ _ _ _) ?_)
  refine .next _ _ (rs_round_same hk' hr ht h' _ _ _ _ _) (.next _ _ (rs_round_mid _ _ _ _ _) (.next _ ⟨[], r, [], [t], false, false⟩ ?_ ?_))
  · simp only [contractStep, Bool.false_eq_true, if_false, if_true]
    exact Tot.rs (tot_pure _)
  · exact rounds_same hk' hr ht h'

end contract

end Tsym
