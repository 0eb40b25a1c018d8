import Verif.ArcNormal

set_option autoImplicit false
set_option linter.unusedSectionVars false
set_option linter.unusedSimpArgs false
set_option linter.unusedVariables false

/-!
# Quotients of a symbol and a root, helpers for C78
-/

namespace Tsym

namespace Arc

open Expr TrigProd

variable {D : Type} [Flt D] [LawfulFlt D] {cfg : Cfg D} {W : Expr D} {p : Bool}

theorem rs_emit_within {cs : List (Cond D)} (h : ∀ c ∈ cs, ∀ σ : Asg, Tt σ → Cond.holds σ c) (b : List (Sym × Expr D)) :
    Rs cfg Tt (fun _ => (M.emit ((cs ++ [] ++ []).map (Cond.within b)) : M D Unit)) () := by
  refine rs_emits fun c hc σ hσ => ?_
  obtain ⟨c', h1, rfl⟩ := List.mem_map.1 hc
  simp only [List.append_nil] at h1
  exact h c' h1 _ trivial

theorem tot_pass (hc : cfg.Ok) {r e e' : Expr D} {t : Sym} (h : Tot cfg (fun E => subst E (.sym t) r e) e') :
    Tot cfg (fun E => replacePass E [(r, t)] e) e' := by
  obtain ⟨N, hN⟩ := tot_subst h
  refine ⟨N, fun n hn => ?_⟩
  have ho : (eng cfg n).cfg.mapOrder [(r, t)] = [(r, t)] := by
    rw [eng_cfg']; exact List.perm_singleton.1 (hc.mapOrder _)
  have := hN n hn
  dsimp only at this
  simp only [replacePass, ho, M.foldL, this]
  rfl

/-- Nothing to replace. -/
theorem tot_back (hc : cfg.Ok) {r e : Expr D} {t : Sym} (he : Exact e) (hu : e.isUndefined = false)
    (h : Tot cfg (fun E => subst E (.sym t) r e) e) : Tot cfg (fun E => replaceBack E [(r, t)] e) e := by
  unfold replaceBack
  refine tot_loop (.done _ (tot_bind (tot_pass hc h) ?_))
  simp only [hu, (isEqual_eq e he e he).2 rfl, Bool.not_true, Bool.false_eq_true, if_false]
  exact tot_pure _

theorem subst_self (t : Sym) (r : Expr D) : Tot cfg (fun E => subst E (.sym t) r (.sym t)) r := by
  have : isEqual (.sym t) (.sym t : Expr D) = true := by simp [isEqual]
  simp only [Tsym.subst, this, if_true]
  exact tot_pure _

theorem subst_sym_ne {s t : Sym} (h : s ≠ t) (r : Expr D) : Tot cfg (fun E => subst E (.sym t) r (.sym s)) (.sym s) := by
  have : isEqual (.sym s) (.sym t : Expr D) = false := by simpa [isEqual] using h
  simp only [Tsym.subst, this, Bool.false_eq_true, if_false]
  exact tot_pure _

theorem GW.exact (h : GW cfg W p) (q : ℚ) : Exact (rt W q) := 
  exact_of_op (by simp) (by simp) (by simpa [operands] using ⟨h.ep.exact, exact_ratE q⟩)

theorem GW.tsym_fresh (hc : cfg.Ok) (h : GW cfg W p) (A : List Nat) : cfg.fresh (A ++ (rt W (1 / 2)).tmpIds) ∉ W.tmpIds ∧
    cfg.fresh (A ++ (rt W (1 / 2)).tmpIds) ∉ A := by
  have := hc.fresh (A ++ (rt W (1 / 2)).tmpIds)
  simp only [List.mem_append, Expr.tmpIds, not_or] at this
  simp only [Expr.tmpIds]
  exact ⟨this.2.1, this.1⟩

theorem GW.back_t (hc : cfg.Ok) (h : GW cfg W p) (A : List Nat) :
    Tot cfg (fun E => replaceBack E [(rt W (1 / 2), tsym cfg W p A)] (.sym (tsym cfg W p A))) (rt W (1 / 2)) := by
  unfold replaceBack
  refine tot_loop (.next _ (rt W (1 / 2)) (tot_bind (tot_pass hc (subst_self _ _)) ?_) (.done _ (tot_bind (a := rt W (1 / 2)) (tot_pass hc ?_) ?_)))
  · have : isEqual (rt W (1 / 2)) (.sym (tsym cfg W p A)) = false := rfl
    simp only [show (rt W (1 / 2)).isUndefined = false from rfl, this, Bool.not_false, Bool.false_eq_true, if_false, if_true]
    exact tot_pure _
  · have : isEqual (rt W (1 / 2)) (.sym (tsym cfg W p A)) = false := rfl
    simp only [Tsym.subst, this, Bool.false_eq_true, if_false]
    exact tot_bind (tot_subst (h.subst _ _ _ (h.tsym_fresh hc A).1)) (tot_bind (tot_subst (subst_num _ _ _))
      (tot_pow (h.pow (by decide +kernel) (by decide +kernel))))
  · simp only [show (rt W (1 / 2)).isUndefined = false from rfl, (isEqual_eq _ (h.exact _) _ (h.exact _)).2 rfl, Bool.not_true, Bool.false_eq_true, if_false]
    exact tot_pure _

/-! ## Expansion -/

theorem expandsToZero_two {x y : Expr D} {l : List (Expr D)} (hl : l = [x, y] ∨ l = [y, x]) (hx : Fc x) (hy : Fc y)
    (sx : x.isSum = false) (sy : y.isSum = false) (ex : Tot cfg (fun E => expand E x) x) (ey : Tot cfg (fun E => expand E y) y)
    (hne : isEqual x.base y.base = false) (hr : isEqual y.base x.base = false) : Tot cfg (fun E => expandsToZero E (.prod l)) false := by
  unfold expandsToZero
  refine tot_whenTrue ?_
  have key : ∃ r, Tot cfg (fun E => E.expand (.prod l)) (.prod r) := by
    have : ∀ {x y : Expr D}, Fc x → Fc y → x.isSum = false → y.isSum = false → Tot cfg (fun E => expand E x) x → Tot cfg (fun E => expand E y) y →
        isEqual x.base y.base = false → isEqual y.base x.base = false → ∃ r, Tot cfg (fun E => E.expand (.prod [x, y])) (.prod r) := by
      intro x y hx hy sx sy ex ey hne hr
      refine ⟨ordered x y, tot_expand ?_⟩
      simp only [expand]
      refine tot_succ (fun _ => rfl) (f := fun E => expandAsProduct E [x, y]) ?_
      unfold expandAsProduct
      refine tot_bind (a := ([x, y], [])) ?_ ?_
      · simp only [defScalarAndSums]
        refine tot_bind (tot_expand ex) (tot_bind (tot_bind (tot_expand ey) (tot_bind (tot_pure _) (tot_pure _))) ?_)
        simp only [sx, sy, Bool.false_eq_true, if_false]
        exact tot_pure _
      · simp only [List.isEmpty_cons, Bool.false_eq_true, if_false]
        exact tot_bind (tot_prod (tot_two hx hy hne hr)) (tot_pure _)
    rcases hl with rfl | rfl
    · exact this hx hy sx sy ex ey hne hr
    · exact this hy hx sy sx ey ex hr hne
  obtain ⟨r, hr⟩ := key
  exact tot_bind hr (tot_pure _)

theorem expand_rt (q : ℚ) (hq : q.den ≠ 1) : Tot cfg (fun E => expand E (rt W q)) (rt W q) := by
  simp only [expand]
  refine tot_bind (tot_lift (Qf.isInteger_rat q)) ?_
  have : decide (q.den = 1) = false := by simpa using hq
  simp only [hq, decide_false, Bool.false_eq_true, if_false]
  exact tot_pure _

theorem ordered_cases (x y : Expr D) : ordered x y = [x, y] ∨ ordered x y = [y, x] := by
  unfold ordered; split <;> simp

/-- A symbol over the root. -/
theorem GW.over (hc : cfg.Ok) (h : GW cfg W p) {s : Sym} (hs : s.id.Ok) :
    Rs cfg Tt (fun E => normalOfFrac E (.sym s) (rt W (1 / 2))) (.prod (ordered (.sym s) (rt W (-1 / 2)))) := by
  have hb1 : isEqual (Expr.sym s).base (rt W (-1 / 2)).base = false := by obtain ⟨l, rfl⟩ := h.sum; rfl
  have hb2 : isEqual (rt W (-1 / 2)).base (Expr.sym s).base = false := by obtain ⟨l, rfl⟩ := h.sum; rfl
  have hmi : Tot cfg (fun E => E.oneOver (rt W (1 / 2))) (rt W (-1 / 2)) := by
    have := tot_pow (h.inv hc)
    rwa [← mOne_rat] at this
  have hev : Tot cfg (fun E => evalFrac E ⟨.sym s, rt W (1 / 2)⟩) (.prod (ordered (.sym s) (rt W (-1 / 2)))) := by
    unfold evalFrac
    exact tot_bind hmi (tot_prod (tot_two (fc_sym s) (h.fc _) hb1 hb2))
  unfold normalOfFrac
  refine rs_bind hev.rs ?_
  generalize hl : ordered (.sym s) (rt W (-1 / 2)) = l
  have hl' : l = [.sym s, rt W (-1 / 2)] ∨ l = [rt W (-1 / 2), .sym s] := by rw [← hl]; exact ordered_cases _ _
  refine rs_succ (fun _ => rfl) (f := fun E => normal E (.prod l)) ?_
  generalize hA : (Expr.prod l).tmpIds = A
  have hst : s ≠ tsym cfg W p A := by
    intro e
    refine (h.tsym_fresh hc A).2 ?_
    rw [← hA]
    refine mem_tmpIds _ s (.op (o := .sym s) (show Expr.sym s ∈ l by rcases hl' with rfl | rfl <;> simp) .refl) _ ?_
    rw [e]; simp [tsym, Sym.tmpId, hA]
  have htO : (tsym cfg W p A).id.Ok := trivial
  have hfr := rs_frac_two (m := ⟨[], A⟩) hl' (fun m => tot_normalFrac_ep hc (EP.sym hs) (dv_sym s) m) (h.frac_neg hc A)
    (expandsToZero_two hl' (fc_sym s) (h.fc _) rfl rfl (by simp only [expand]; exact tot_pure _) (expand_rt _ (by decide +kernel)) hb1 hb2)
    (tot_one (.inr ⟨rfl, rfl⟩) (fc_sym s)) (tot_one (.inl ⟨rfl, rfl⟩) (fc_sym s)) (tot_one (.inl ⟨rfl, rfl⟩) (fc_sym _)) (tot_one (.inr ⟨rfl, rfl⟩) (fc_sym _))
    (rs_cancel_syms hc hs htO hst)
  obtain ⟨cs, h1, h2⟩ := rs_capture hfr
  unfold normal
  simp only [hA]
  refine rs_bind h2.rs (rs_bind (tot_capture (tot_back hc (e := .sym s) (EP.sym hs).exact rfl (subst_sym_ne hst _))).rs (rs_bind (tot_capture (h.back_t hc A)).rs
    (rs_bind (rs_emit_within h1 _) ?_)))
  rw [← hl]
  exact hev.rs

/-- The root over a symbol. -/
theorem GW.under (hc : cfg.Ok) (h : GW cfg W p) {s : Sym} (hs : s.id.Ok) :
    Rs cfg Tt (fun E => normalOfFrac E (rt W (1 / 2)) (.sym s)) (.prod (ordered (rt W (1 / 2)) (.pow (.sym s) (.num (.rat (-1)))))) := by
  have hb1 : isEqual (Expr.pow (.sym s) (.num (.rat (-1)))).base (rt W (1 / 2)).base = false := by obtain ⟨l, rfl⟩ := h.sum; rfl
  have hb2 : isEqual (rt W (1 / 2)).base (Expr.pow (.sym s) (.num (.rat (-1)))).base = false := by obtain ⟨l, rfl⟩ := h.sum; rfl
  have hpw : Tot cfg (fun E => E.powCreate (.sym s) (num (.rat (-1)))) (.pow (.sym s) (.num (.rat (-1))) : Expr D) := by
    have := tot_pow (Tower.tot_power (cfg := cfg) (D := D) s (-1))
    rwa [show (Tower.power s (-1) : Expr D) = .pow (.sym s) (.num (.rat (-1))) by simp only [Tower.power]; norm_num] at this
  have hmi : Tot cfg (fun E => E.oneOver (.sym s)) (.pow (.sym s) (.num (.rat (-1))) : Expr D) := by
    unfold Eng.oneOver; rwa [mOne_rat]
  have hev : Tot cfg (fun E => evalFrac E ⟨rt W (1 / 2), .sym s⟩) (.prod (ordered (rt W (1 / 2)) (.pow (.sym s) (.num (.rat (-1)))))) := by
    unfold evalFrac
    exact tot_bind hmi (tot_prod (tot_two (h.fc _) (fc_symInv s) hb2 hb1))
  unfold normalOfFrac
  refine rs_bind hev.rs ?_
  generalize hl : ordered (rt W (1 / 2)) (.pow (.sym s) (.num (.rat (-1)))) = l
  have hl' : l = [.pow (.sym s) (.num (.rat (-1))), rt W (1 / 2)] ∨ l = [rt W (1 / 2), .pow (.sym s) (.num (.rat (-1)))] := by
    rw [← hl]; exact (ordered_cases _ _).symm
  refine rs_succ (fun _ => rfl) (f := fun E => normal E (.prod l)) ?_
  generalize hA : (Expr.prod l).tmpIds = A
  have hst : s ≠ tsym cfg W p A := by
    intro e
    refine (h.tsym_fresh hc A).2 ?_
    rw [← hA]
    refine mem_tmpIds _ s (.op (o := .pow (.sym s) (.num (.rat (-1)))) (show Expr.pow (.sym s) (.num (.rat (-1))) ∈ l by rcases hl' with rfl | rfl <;> simp)
      (.op (o := .sym s) (show Expr.sym s ∈ [Expr.sym s, .num (.rat (-1))] by simp) .refl)) _ ?_
    rw [e]; simp [tsym, Sym.tmpId, hA]
  have htO : (tsym cfg W p A).id.Ok := trivial
  have hei : Tot cfg (fun E => expand E (.pow (.sym s) (.num (.rat (-1))))) (.pow (.sym s) (.num (.rat (-1))) : Expr D) := by
    simp only [expand]
    refine tot_bind (tot_lift (Qf.isInteger_rat _)) ?_
    rw [show decide ((-1 : ℚ).den = 1) = true by decide +kernel]
    simp only [if_true]
    exact hpw
  have hfr := rs_frac_two (m := ⟨[], A⟩) hl' (fun m => frac_symInv hc hs m) (h.frac_pos hc A)
    (expandsToZero_two hl' (fc_symInv s) (h.fc _) rfl rfl hei (expand_rt _ (by decide +kernel)) hb1 hb2)
    (tot_one (.inl ⟨rfl, rfl⟩) (fc_sym _)) (tot_one (.inr ⟨rfl, rfl⟩) (fc_sym _)) (tot_one (.inr ⟨rfl, rfl⟩) (fc_sym _)) (tot_one (.inl ⟨rfl, rfl⟩) (fc_sym _))
    (rs_cancel_syms hc htO hs hst.symm)
  obtain ⟨cs, h1, h2⟩ := rs_capture hfr
  unfold normal
  simp only [hA]
  refine rs_bind h2.rs (rs_bind (tot_capture (h.back_t hc A)).rs (rs_bind (tot_capture (tot_back hc (e := .sym s) (EP.sym hs).exact rfl (subst_sym_ne hst _))).rs
    (rs_bind (rs_emit_within h1 _) ?_)))
  rw [← hl]
  exact hev.rs

/-- The inverse of the root. -/
theorem GW.oneOver (hc : cfg.Ok) (h : GW cfg W p) : Tot cfg (fun E => normalOfFrac E one (rt W (1 / 2))) (rt W (-1 / 2)) := by
  have hmi : Tot cfg (fun E => E.oneOver (rt W (1 / 2))) (rt W (-1 / 2)) := by
    have := tot_pow (h.inv hc)
    rwa [← mOne_rat] at this
  have hev : Tot cfg (fun E => evalFrac E ⟨one, rt W (1 / 2)⟩) (rt W (-1 / 2)) := by
    unfold evalFrac
    exact tot_bind hmi (tot_prod (tot_one (.inl ⟨rfl, rfl⟩) (h.fc _)))
  unfold normalOfFrac
  refine tot_bind hev ?_
  refine tot_succ (fun _ => rfl) (f := fun E => normal E (rt W (-1 / 2))) ?_
  unfold normal
  refine tot_bind (tot_capture (h.frac_neg hc _)) (tot_bind (tot_capture (tot_back hc (e := one) (by rw [one_eq]; exact (EP.num (D := D) 1).exact) rfl ?_)) (tot_bind (tot_capture (h.back_t hc _))
    (tot_bind tot_emit hev)))
  rw [one_eq]; exact subst_num _ _ _

end Arc

end Tsym
