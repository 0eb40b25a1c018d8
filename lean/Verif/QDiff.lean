import Verif.QDom
import Verif.PolyDiff
import Verif.DerivSpec

set_option autoImplicit false
set_option linter.unusedSectionVars false
set_option linter.unusedSimpArgs false
set_option linter.unusedVariables false

/-!
# Derivatives of expanded Puiseux polynomials
-/

namespace Tsym

open Expr

namespace Qf

open scoped Classical

section

variable {ι : Type}

/-- The derivative in the ring of Puiseux polynomials. -/
noncomputable def pd (x : ι) : AddMonoidAlgebra ℚ (ι →₀ ℚ) →+ AddMonoidAlgebra ℚ (ι →₀ ℚ) :=
  (Finsupp.liftAddHom fun c => (AddMonoidAlgebra.singleAddHom (c - Finsupp.single x 1)).comp (AddMonoidHom.mulLeft (c x))).comp
    AddMonoidAlgebra.coeffAddEquiv.toAddMonoidHom

theorem pd_single (x : ι) (c : ι →₀ ℚ) (q : ℚ) :
    pd x (AddMonoidAlgebra.single c q) = AddMonoidAlgebra.single (c - Finsupp.single x 1) (c x * q) := by
  simp [pd, AddMonoidAlgebra.coeffAddEquiv]

theorem pd_one (x : ι) : pd x 1 = 0 := by
  have : (1 : AddMonoidAlgebra ℚ (ι →₀ ℚ)) = AddMonoidAlgebra.single 0 1 := rfl
  rw [this, pd_single]; simp

theorem pd_mul (x : ι) (p q : AddMonoidAlgebra ℚ (ι →₀ ℚ)) : pd x (p * q) = pd x p * q + p * pd x q := by
  induction p using AddMonoidAlgebra.induction_linear with
  | zero => simp
  | add p p' h h' => rw [add_mul, map_add, h, h', map_add]; ring
  | single c r =>
    induction q using AddMonoidAlgebra.induction_linear with
    | zero => simp
    | add p p' h h' => rw [mul_add, map_add, h, h', map_add]; ring
    | single d t =>
      rw [AddMonoidAlgebra.single_mul_single, pd_single, pd_single, pd_single, AddMonoidAlgebra.single_mul_single,
        AddMonoidAlgebra.single_mul_single]
      have e1 : c - Finsupp.single x 1 + d = c + d - Finsupp.single x 1 := by abel
      have e2 : c + (d - Finsupp.single x 1) = c + d - Finsupp.single x 1 := by abel
      rw [e1, e2, ← AddMonoidAlgebra.single_add, Finsupp.add_apply]
      congr 1; ring

theorem pd_comm (x y : ι) (p : AddMonoidAlgebra ℚ (ι →₀ ℚ)) : pd x (pd y p) = pd y (pd x p) := by
  induction p using AddMonoidAlgebra.induction_linear with
  | zero => simp
  | add p p' h h' => simp only [map_add, h, h']
  | single c r =>
    by_cases h : x = y
    · rw [h]
    simp only [pd_single, Finsupp.sub_apply, Finsupp.single_apply, if_neg h, if_neg (Ne.symm h), sub_zero]
    congr 1
    · abel
    · ring

end

variable {D : Type} [Flt D] [LawfulFlt D] {cfg : Cfg D} {σ τ : Asg}

theorem lv_fac {f : Expr D × ℚ} (h : QF cfg f) (hs : Sb [f]) : lv cfg (fac f) = AddMonoidAlgebra.single (Finsupp.single f.1 f.2) 1 := by
  rw [fac_mexpr]
  have := lv_em (cfg := cfg) (m := (1, [f])) (kl_sb.sm one_ne_zero (Can.single h) hs)
  rw [em] at this
  rw [this]
  simp [cnt]

theorem em_fac {f : Expr D × ℚ} (h : QF cfg f) (hs : Sb [f]) : EM cfg Sb (fac f) := by
  rw [fac_mexpr]
  exact EM.mono kl_sb (m := (1, [f])) one_ne_zero (Can.single h) hs

theorem sb_single (s : Sym) (k : ℚ) : Sb [((.sym s : Expr D), k)] := by
  intro f hf; rw [List.mem_singleton.1 hf]; exact ⟨s, rfl⟩

/-- The derivative of a power of a symbol. -/
theorem tot_diff_fac (hc : cfg.Ok) (s : Sym) {f : Expr D × ℚ} (h : QF cfg f) (hs : Sb [f]) :
    ∃ d, Tot cfg (fun E => diff E (.sym s) (fac f)) d ∧ EM cfg Sb d ∧ lv cfg d = pd (.sym s) (lv cfg (fac f)) := by
  obtain ⟨b, k⟩ := f
  obtain ⟨t, rfl⟩ : ∃ t, b = .sym t := hs (b, k) (by simp)
  have h0 : t ≠ s → pd (.sym s) (lv cfg (fac ((.sym t : Expr D), k))) = 0 := by
    intro hne
    rw [lv_fac h hs, pd_single]
    simp [Finsupp.single_apply, hne]
  have dsym : Tot cfg (fun E => diff E (.sym s) (.sym t)) (if t = s then one else zero : Expr D) := by
    simp only [diff, isEqual_sym]
    by_cases e : t = s <;> simp [e] <;> exact tot_pure _
  have eone : EM cfg Sb (one : Expr D) := by rw [one_eq]; exact EM.num kl_sb 1
  by_cases h1 : k = 1
  · subst h1
    have e : fac ((.sym t : Expr D), 1) = .sym t := by simp [fac]
    refine ⟨_, by rw [e]; exact dsym, ?_, ?_⟩
    · split
      exacts [eone, EM.zero]
    · by_cases hts : t = s
      · rw [if_pos hts, lv_one, lv_fac h hs, pd_single, hts]; simp; rfl
      · rw [if_neg hts, h0 hts, lv_zero]
  · have e : fac ((.sym t : Expr D), k) = .pow (.sym t) (.num (.rat k)) := by simp [fac, h1]
    have hok : t.id.Ok := h.base.sym_ok
    have hI : QF cfg ((.sym t : Expr D), -1) := ⟨h.base, .inl (by norm_num), by norm_num⟩
    have eI : fac ((.sym t : Expr D), -1) = symInv t := by
      rw [symInv, mOne_rat]; simp only [fac]; rw [if_neg (by norm_num)]
    have hz1 : Tot cfg (fun E => E.diff (.sym s) (.num (.rat k))) (zero : Expr D) := tot_diff (by simp only [diff]; exact tot_pure _)
    have hz2 : Tot cfg (fun E => E.prodCreate [.fn .log (.sym t), zero]) (zero : Expr D) := tot_prod_zero rfl (by simp)
    obtain ⟨p, p1, p2, p3⟩ := tot_prod_em hc kl_sb (A := [.num (.rat k), symInv t, if t = s then one else zero]) (by simp) (by
      intro x hx
      simp only [List.mem_cons, List.not_mem_nil, or_false] at hx
      rcases hx with rfl | rfl | rfl
      · exact EM.num kl_sb k
      · rw [← eI]; exact em_fac hI (sb_single _ _)
      · split
        exacts [eone, EM.zero])
    obtain ⟨q, q1, q2, q3⟩ := tot_sum_ep hc (K := Sb) (es := [zero, p]) (by simp) (by
      intro x hx
      simp only [List.mem_cons, List.not_mem_nil, or_false] at hx
      rcases hx with rfl | rfl
      exacts [EP.zero, p2.1])
    have hqp : q = p := q2.unique p2.1 (by rw [q3]; simp [lv_zero])
    subst hqp
    obtain ⟨r, r1, r2, r3⟩ := tot_prod_em hc kl_sb (A := [fac ((.sym t : Expr D), k), q]) (by simp) (by
      intro x hx
      simp only [List.mem_cons, List.not_mem_nil, or_false] at hx
      rcases hx with rfl | rfl
      exacts [em_fac h hs, p2])
    refine ⟨r, ?_, r2, ?_⟩
    · rw [e] at r1 ⊢
      simp only [diff]
      exact tot_bind (tot_log_sym t) (tot_bind hz1 (tot_bind hz2 (tot_bind (tot_oneOver_sym t) (tot_bind (tot_diff dsym)
        (tot_bind (tot_prod p1) (tot_bind (tot_sum q1) (tot_prod r1)))))))
    · rw [r3]
      simp only [List.map_cons, List.map_nil, List.prod_cons, List.prod_nil, mul_one, p3]
      by_cases hts : t = s
      · subst hts
        rw [if_pos rfl, lv_one, mul_one, ← eI, lv_fac h hs, lv_fac hI (sb_single _ _), lv_num, AddMonoidAlgebra.single_mul_single,
          AddMonoidAlgebra.single_mul_single, pd_single]
        simp only [zero_add, one_mul, mul_one, Finsupp.single_eq_same]
        congr 1
        rw [← Finsupp.single_add, ← Finsupp.single_sub, sub_eq_add_neg]
      · rw [if_neg hts, h0 hts, lv_zero]; simp

theorem em_rl {m : Mo D} (hC : Can cfg m.2) (hs : Sb m.2) : ∀ e ∈ rl m.1 m.2, EM cfg Sb e := by
  intro e he
  unfold rl at he
  rcases List.mem_append.1 he with he | he
  · split at he
    · simp at he
    · rw [List.mem_singleton.1 he]; exact EM.num kl_sb _
  · obtain ⟨f, hf, rfl⟩ := List.mem_map.1 he
    exact em_fac (hC.facs f hf) (fun g hg => by rw [List.mem_singleton.1 hg]; exact hs f hf)

theorem tot_diff_item (hc : cfg.Ok) (s : Sym) {m : Mo D} (hC : Can cfg m.2) (hs : Sb m.2) {e : Expr D} (he : e ∈ rl m.1 m.2) :
    ∃ d, Tot cfg (fun E => diff E (.sym s) e) d ∧ EM cfg Sb d ∧ lv cfg d = pd (.sym s) (lv cfg e) := by
  unfold rl at he
  rcases List.mem_append.1 he with he | he
  · split at he
    · simp at he
    · rw [List.mem_singleton.1 he]
      refine ⟨zero, by simp only [diff]; exact tot_pure _, EM.zero, ?_⟩
      rw [lv_num, pd_single, lv_zero]; simp
  · obtain ⟨f, hf, rfl⟩ := List.mem_map.1 he
    exact tot_diff_fac hc s (hC.facs f hf) (fun g hg => by rw [List.mem_singleton.1 hg]; exact hs f hf)

/-- The summands of the derivative of a product. -/
theorem tot_diffProd (hc : cfg.Ok) (s : Sym) {l : List (Expr D)} (h : ∀ e ∈ l, EM cfg Sb e ∧
    ∃ d, Tot cfg (fun E => diff E (.sym s) e) d ∧ EM cfg Sb d ∧ lv cfg d = pd (.sym s) (lv cfg e)) {b : List (Expr D)} (hb : ∀ e ∈ b, EM cfg Sb e) :
    ∃ r, Tot cfg (fun E => diffProd E (.sym s) b l) r ∧ r.length = l.length ∧ (∀ e ∈ r, EP cfg Sb e) ∧
      (r.map (lv cfg)).sum = (b.map (lv cfg)).prod * pd (.sym s) ((l.map (lv cfg)).prod) := by
  induction l generalizing b with
  | nil => exact ⟨[], by simp only [diffProd]; exact tot_pure _, rfl, by simp, by simp [pd_one]⟩
  | cons a l ih =>
    obtain ⟨ha, d, hd, hde, hdp⟩ := h a (by simp)
    have hl : ∀ e ∈ d :: (b ++ l), EM cfg Sb e := by
      intro e he
      rcases List.mem_cons.1 he with rfl | he
      · exact hde
      · rcases List.mem_append.1 he with he | he
        exacts [hb e he, (h e (by simp [he])).1]
    obtain ⟨p, hp, hpe, hpp⟩ := tot_prod_em hc kl_sb (A := d :: (b ++ l)) (by simp) hl
    obtain ⟨r, h1, h2, h3, h4⟩ := ih (fun e he => h e (by simp [he])) (b := b ++ [a]) (by
      intro e he
      rcases List.mem_append.1 he with he | he
      · exact hb e he
      · rw [List.mem_singleton.1 he]; exact ha)
    refine ⟨p :: r, ?_, by simp [h2], ?_, ?_⟩
    · simp only [diffProd]
      exact tot_bind (tot_diff hd) (tot_bind (tot_prod hp) (tot_bind h1 (tot_pure _)))
    · intro e he
      rcases List.mem_cons.1 he with rfl | he
      exacts [hpe.1, h3 e he]
    · simp only [List.map_cons, List.sum_cons, List.prod_cons, h4, hpp, hdp, List.map_append, List.prod_append, List.map_nil,
        List.prod_nil, pd_mul]
      ring

theorem lv_prod {m : Mo D} (hm : m.1 ≠ 0) (hC : Can cfg m.2) (hs : Sb m.2) : ((rl m.1 m.2).map (lv cfg)).prod = lv cfg (em m) := by
  have key : ∀ P : List (Expr D × ℚ), QFs cfg P → Sb P → ((P.map fac).map (lv cfg)).prod = AddMonoidAlgebra.single (cnt P) 1 := by
    intro P hP hs
    induction P with
    | nil => simp [cnt]; rfl
    | cons f P ih =>
      rw [List.map_cons, List.map_cons, List.prod_cons, ih (fun x hx => hP x (by simp [hx])) hs.cons.2, lv_fac (hP f (by simp)) hs.cons.1,
        AddMonoidAlgebra.single_mul_single, cnt_cons, one_mul]
  rw [lv_em (kl_sb.sm hm hC hs)]
  by_cases h1 : m.1 = 1
  · rw [h1, rl_one, key _ hC.facs hs]
  · rw [rl_ne h1, List.map_cons, List.prod_cons, key _ hC.facs hs, lv_num, AddMonoidAlgebra.single_mul_single, zero_add, mul_one]

/-- The derivative of a monomial. -/
theorem tot_diff_em (hc : cfg.Ok) (s : Sym) {m : Mo D} (hm : m.1 ≠ 0) (hC : Can cfg m.2) (hs : Sb m.2) :
    ∃ d, Tot cfg (fun E => diff E (.sym s) (em m)) d ∧ EP cfg Sb d ∧ lv cfg d = pd (.sym s) (lv cfg (em m)) := by
  rcases mexpr_cases m.1 m.2 with ⟨h, e⟩ | ⟨f, h, hq, e⟩ | ⟨h0, h2, e⟩
  · rw [em, e]
    refine ⟨zero, by simp only [diff]; exact tot_pure _, EP.zero, ?_⟩
    rw [lv_num, pd_single, lv_zero]; simp
  · rw [em, e]
    obtain ⟨d, h1, h2, h3⟩ := tot_diff_fac hc s (hC.facs f (by rw [h]; simp)) (fun g hg => by
      rw [List.mem_singleton.1 hg]; exact hs f (by rw [h]; simp))
    exact ⟨d, h1, h2.1, h3⟩
  · obtain ⟨r, h3, h4, h5, h6⟩ := tot_diffProd hc s (l := rl m.1 m.2) (fun e he => ⟨em_rl hC hs e he, tot_diff_item hc s hC hs he⟩) (b := []) (by simp)
    obtain ⟨d, h7, h8, h9⟩ := tot_sum_ep hc (es := r) (by rintro rfl; simp at h4; omega) h5
    refine ⟨d, ?_, h8, ?_⟩
    · rw [em, e]; simp only [diff]
      exact tot_bind h3 (tot_sum h7)
    · rw [h9, h6, lv_prod hm hC hs]; simp

/-- The derivative of an expanded Puiseux polynomial. -/
theorem tot_diff_ep (hc : cfg.Ok) (s : Sym) {r : Expr D} (h : EP cfg Sb r) :
    ∃ d, Tot cfg (fun E => diff E (.sym s) r) d ∧ EP cfg Sb d ∧ lv cfg d = pd (.sym s) (lv cfg r) := by
  rcases h.cases with rfl | ⟨m, hm, hC, hK, rfl⟩ | ⟨L, hL, h2, rfl⟩
  · refine ⟨zero, by simp only [zero, diff]; exact tot_pure _, EP.zero, ?_⟩
    rw [lv_zero, map_zero]
  · exact tot_diff_em hc s hm hC hK
  · obtain ⟨bs, h3, h4⟩ := tot_mapL_ex (cfg := cfg) (f := fun E a => E.diff (.sym s) a) (l := L.map em)
      (Q := fun a d => EP cfg Sb d ∧ lv cfg d = pd (.sym s) (lv cfg a)) (by
        intro a ha
        obtain ⟨m, hm, rfl⟩ := List.mem_map.1 ha
        have sm := hL.sl.sm m hm
        obtain ⟨d, h1, h2, h3⟩ := tot_diff_em hc s sm.ne sm.can (hL.sb m hm)
        exact ⟨d, tot_diff h1, h2, h3⟩)
    have h5 : ∀ d ∈ bs, EP cfg Sb d := by
      intro d hd
      obtain ⟨i, hi, rfl⟩ := List.getElem_of_mem hd
      exact ((List.forall₂_iff_get.1 h4).2 i (by rw [h4.length_eq]; exact hi) hi).1
    have h6 : (bs.map (lv cfg)).sum = pd (.sym s) (((L.map em).map (lv cfg)).sum) := by
      clear h3 h5
      generalize L.map em = l at h4
      induction h4 with
      | nil => simp
      | cons hh _ ih => simp only [List.map_cons, List.sum_cons, map_add, ih, hh.2]
    obtain ⟨d, h7, h8, h9⟩ := tot_sum_ep hc (es := bs) (by
      rintro rfl
      have := h4.length_eq
      simp at this; rw [this] at h2; simp at h2) h5
    refine ⟨d, ?_, h8, ?_⟩
    · simp only [diff]
      exact tot_bind h3 (tot_sum h7)
    · rw [h9, h6, rv_sum hL.sl, lv_sum hL.sl h2]

/-- The same in terms of the symbols. -/
theorem pd_map (s : Sym) (p : Ls) : pd (.sym s : Expr D) (AddMonoidAlgebra.mapDomain (Finsupp.mapDomain Expr.sym) p) =
    AddMonoidAlgebra.mapDomain (Finsupp.mapDomain Expr.sym) (pd s p) := by
  have hi : Function.Injective (Expr.sym : Sym → Expr D) := fun a b h => by cases h; rfl
  induction p using AddMonoidAlgebra.induction_linear with
  | zero => simp
  | add p p' h h' => rw [AddMonoidAlgebra.mapDomain_add, map_add, h, h', map_add, AddMonoidAlgebra.mapDomain_add]
  | single c r =>
    rw [AddMonoidAlgebra.mapDomain_single, pd_single, pd_single, AddMonoidAlgebra.mapDomain_single, Finsupp.mapDomain_apply hi]
    congr 1
    ext x
    have := Finsupp.mapDomain_add (f := (Expr.sym : Sym → Expr D)) (v₁ := c - Finsupp.single s 1) (v₂ := Finsupp.single s 1)
    rw [sub_add_cancel, Finsupp.mapDomain_single] at this
    rw [this, add_sub_cancel_right]

theorem map_inj {p q : Ls} (h : AddMonoidAlgebra.mapDomain (Finsupp.mapDomain (Expr.sym : Sym → Expr D)) p =
    AddMonoidAlgebra.mapDomain (Finsupp.mapDomain Expr.sym) q) : p = q := by
  have hi : Function.Injective (Expr.sym : Sym → Expr D) := fun a b h => by cases h; rfl
  exact AddMonoidAlgebra.mapDomain_injective (Finsupp.mapDomain_injective hi) h

theorem tot_diff_el (hc : cfg.Ok) (s : Sym) {L : List (Mo D)} (h : EL cfg Sb L) :
    ∃ M, EL cfg Sb M ∧ Tot cfg (fun E => diff E (.sym s) (sumOf (L.map em))) (sumOf (M.map em)) ∧ qv M = pd s (qv L) := by
  obtain ⟨d, h1, ⟨M, hM, rfl⟩, h3⟩ := tot_diff_ep hc s (r := sumOf (L.map em)) ⟨L, h, rfl⟩
  refine ⟨M, hM, h1, map_inj (D := D) ?_⟩
  rw [lv_sumOf hM.sl, lv_sumOf h.sl, rv_qv hM.sb, rv_qv h.sb, pd_map] at h3
  exact h3

theorem pd_coeff {ι : Type} (x : ι) (p : AddMonoidAlgebra ℚ (ι →₀ ℚ)) (c : ι →₀ ℚ) :
    (pd x p).coeff (c - Finsupp.single x 1) = c x * p.coeff c := by
  induction p using AddMonoidAlgebra.induction_linear with
  | zero => simp
  | add p p' h h' => rw [map_add, AddMonoidAlgebra.coeff_add, Finsupp.add_apply, h, h', AddMonoidAlgebra.coeff_add, Finsupp.add_apply]; ring
  | single d r =>
    rw [pd_single, AddMonoidAlgebra.coeff_single, AddMonoidAlgebra.coeff_single, Finsupp.single_apply, Finsupp.single_apply]
    by_cases e : d = c
    · subst e; simp
    · rw [if_neg e, if_neg fun h => e (sub_left_injective h)]; simp

/-- If the derivative is zero, the symbol does not occur. -/
theorem not_occurs (s : Sym) {L : List (Mo D)} (h : EL cfg Sb L) (h0 : pd (.sym s) (rv L) = 0) : ¬ Occurs (.sym s) (sumOf (L.map em)) := by
  have hf : ∀ m ∈ L, ∀ f ∈ m.2, f.1 ≠ .sym s := by
    intro m hm f hf e
    have hcan := fun m hm => (h.sl.sm m hm).can
    have h1 := pd_coeff (.sym s) (rv L) (cnt m.2)
    rw [h0, rv_coeff hcan (hcan m hm), ((h.sl.mem_iff m).1 hm).1, ← e] at h1
    have h2 := ((hcan m hm).mem_iff f).1 hf
    rw [h2.1] at h1
    simp only [AddMonoidAlgebra.coeff_zero, Finsupp.coe_zero, Pi.zero_apply] at h1
    exact mul_ne_zero h2.2 (h.sl.sm m hm).ne h1.symm
  have hfac : ∀ m ∈ L, ∀ f ∈ m.2, ¬ Occurs (.sym s) (fac f) := by
    intro m hm f hfm ho
    obtain ⟨t, ht⟩ := h.sb m hm f hfm
    have hne := hf m hm f hfm
    rw [ht] at hne
    have hsym : ¬ Occurs (.sym s) (.sym t : Expr D) := by
      rw [occurs_iff]; rintro (h | ⟨o, ho, _⟩)
      · exact hne h.symm
      · simp [operands] at ho
    unfold fac at ho
    rw [ht] at ho
    split at ho
    · exact hsym ho
    · rw [occurs_iff] at ho
      rcases ho with h | ⟨o, ho, h⟩
      · cases h
      · simp only [operands, List.mem_cons, List.not_mem_nil, or_false] at ho
        rcases ho with rfl | rfl
        · exact hsym h
        · rw [occurs_iff] at h
          rcases h with h | ⟨o, ho, _⟩
          · cases h
          · simp [operands] at ho
  have hnum : ∀ q : ℚ, ¬ Occurs (.sym s) (.num (.rat q) : Expr D) := by
    intro q h
    rw [occurs_iff] at h
    rcases h with h | ⟨o, ho, _⟩
    · cases h
    · simp [operands] at ho
  have hem : ∀ m ∈ L, ¬ Occurs (.sym s) (em m) := by
    intro m hm ho
    rcases mexpr_cases m.1 m.2 with ⟨_, e⟩ | ⟨f, hf', _, e⟩ | ⟨h0, h2, e⟩ <;> rw [em, e] at ho
    · exact hnum _ ho
    · exact hfac m hm f (by rw [hf']; simp) ho
    · rw [occurs_iff] at ho
      rcases ho with h | ⟨o, ho, h⟩
      · cases h
      · simp only [operands] at ho
        unfold rl at ho
        rcases List.mem_append.1 ho with ho | ho
        · split at ho
          · simp at ho
          · rw [List.mem_singleton.1 ho] at h; exact hnum _ h
        · obtain ⟨f, hf, rfl⟩ := List.mem_map.1 ho
          exact hfac m hm f hf h
  match L, h, hem with
  | [], _, _ => simp only [List.map_nil, sumOf, zero_eq]; exact hnum 0
  | [m], _, hem => exact hem m (by simp)
  | m :: n :: L, _, hem =>
    intro ho
    rw [show sumOf ((m :: n :: L).map em) = .sum ((m :: n :: L).map em) from rfl, occurs_iff] at ho
    rcases ho with h | ⟨o, ho, h⟩
    · cases h
    · simp only [operands] at ho
      obtain ⟨k, hk, rfl⟩ := List.mem_map.1 ho
      exact hem k hk h

/-- Where it has a value and the symbol is not zero, an expanded Puiseux polynomial is put together from differentiable functions. -/
theorem smooth_el (hσ : σ.Respects) (s : Sym) (hs : σ s ≠ 0) {L : List (Mo D)} (h : EL cfg Sb L) {v : ℝ} (hv : den σ (sumOf (L.map em)) = some v) :
    Smooth σ s (sumOf (L.map em)) := by
  have hno : ∀ {t : Sym}, t ≠ s → ¬ Occurs (.sym s) (.sym t : Expr D) := by
    intro t hne h
    rw [occurs_iff] at h
    rcases h with h | ⟨o, ho, _⟩
    · cases h; exact hne rfl
    · simp [operands] at ho
  have hnum : ∀ q : ℚ, Smooth σ s (.num (.rat q) : Expr D) := by
    intro q
    refine .const ?_ rfl
    intro h
    rw [occurs_iff] at h
    rcases h with h | ⟨o, ho, _⟩
    · cases h
    · simp [operands] at ho
  have hnumo : ∀ q : ℚ, ¬ Occurs (.sym s) (.num (.rat q) : Expr D) := by
    intro q h
    rw [occurs_iff] at h
    rcases h with h | ⟨o, ho, _⟩
    · cases h
    · simp [operands] at ho
  have hfac : ∀ f : Expr D × ℚ, QF cfg f → Sb [f] → Val σ (fac f) → Smooth σ s (fac f) := by
    rintro ⟨b, k⟩ hq hb hval
    obtain ⟨t, rfl⟩ : ∃ t, b = .sym t := hb (b, k) (by simp)
    by_cases hts : t = s
    · subst hts
      unfold fac
      split
      · exact .sym
      · rcases hq.sym_ok rfl with hp | hp
        · exact .pow .sym (hnum k) rfl (lt_of_le_of_ne (hσ t hp) hs.symm)
        · refine .powInt (n := k.num) .sym (hnumo k) ?_ rfl hs
          have : (k : ℝ) = (k.num : ℝ) := by exact_mod_cast ((Rat.den_eq_one_iff k).1 hp).symm
          rw [← this]; rfl
    · obtain ⟨w, hw⟩ := hval
      refine .const ?_ hw
      unfold fac
      split
      · exact hno hts
      · intro h
        rw [occurs_iff] at h
        rcases h with h | ⟨o, ho, h⟩
        · cases h
        · simp only [operands, List.mem_cons, List.not_mem_nil, or_false] at ho
          rcases ho with rfl | rfl
          · exact hno hts h
          · exact hnumo _ h
  have hem : ∀ m ∈ L, Val σ (em m) → Smooth σ s (em m) := by
    intro m hm hval
    have hfm : ∀ f ∈ m.2, QF cfg f ∧ Sb [f] := fun f hf => ⟨(h.sl.sm m hm).facs f hf, fun g hg => by
      rw [List.mem_singleton.1 hg]; exact h.sb m hm f hf⟩
    rcases mexpr_cases m.1 m.2 with ⟨_, e⟩ | ⟨f, hf', _, e⟩ | ⟨h0, h2, e⟩ <;> rw [em, e] at hval ⊢
    · exact hnum _
    · have := hfm f (by rw [hf']; simp)
      exact hfac f this.1 this.2 hval
    · obtain ⟨w, hw⟩ := hval
      refine .prod fun o ho => ?_
      have hov := Zf.denProd_mem hw o ho
      unfold rl at ho
      rcases List.mem_append.1 ho with ho | ho
      · split at ho
        · simp at ho
        · rw [List.mem_singleton.1 ho]; exact hnum _
      · obtain ⟨f, hf, rfl⟩ := List.mem_map.1 ho
        exact hfac f (hfm f hf).1 (hfm f hf).2 hov
  match L, h, hem, hv with
  | [], _, _, _ => simp only [List.map_nil, sumOf, zero_eq]; exact hnum 0
  | [m], _, hem, hv => exact hem m (by simp) ⟨v, hv⟩
  | m :: n :: L, _, hem, hv =>
    rw [show sumOf ((m :: n :: L).map em) = .sum ((m :: n :: L).map em) from rfl] at hv ⊢
    refine .sum fun o ho => ?_
    have hov := denSum_mem hv o ho
    obtain ⟨k, hk, rfl⟩ := List.mem_map.1 ho
    exact hem k hk hov

theorem tm_el {L : List (Mo D)} (h : EL cfg Sb L) : Tm cfg (LF cfg) (sumOf (L.map em)) := by
  refine tm_sumOf h.sl fun m hm f hf => ?_
  obtain ⟨t, ht⟩ := h.sb m hm f hf
  have := ((h.sl.sm m hm).facs f hf).base
  rw [ht] at this
  exact ⟨by rw [ht]; exact .sym t this.sym_ok, .inr ⟨t, ht⟩⟩

open Zf (Pos)

/-- The expanded product. -/
theorem tot_mul_el (hc : cfg.Ok) {L M : List (Mo D)} (hL : EL cfg Sb L) (hM : EL cfg Sb M) :
    ∃ p R, Tot cfg (fun E => prodCreate E [sumOf (L.map em), sumOf (M.map em)]) p ∧ Tm cfg (LF cfg) p ∧
      (∀ g : Pos, den g.asg p = some (ev g (qv L * qv M))) ∧ EL cfg Sb R ∧ Tot cfg (fun E => expand E p) (sumOf (R.map em)) ∧
      qv R = qv L * qv M := by
  obtain ⟨p, h1, h2⟩ := cl_lf.tot_prod hc (es := [sumOf (L.map em), sumOf (M.map em)]) (by
    intro x hx
    simp only [List.mem_cons, List.not_mem_nil, or_false] at hx
    rcases hx with rfl | rfl
    exacts [tm_el hL, tm_el hM])
  have hv : ∀ g : Pos, den g.asg p = some (ev g (qv L * qv M)) := fun g => by
    rw [map_mul]
    exact Zf.tv_prod hc g.respects h1 (denProd_two (den_qv g hL.sb) (den_qv g hM.sb))
  obtain ⟨r, h3, R, hR, rfl⟩ := h2.xe hc
  refine ⟨p, R, h1, h2, hv, hR, h3, ev_inj fun g => ?_⟩
  have := Zf.tv_expand hc g.respects h3 (hv g)
  rw [den_qv g hR.sb] at this
  exact Option.some.inj this

end Qf
end Tsym
