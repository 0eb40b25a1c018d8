import Verif.SoundProd

set_option autoImplicit false
set_option linter.unusedSectionVars false
set_option linter.unusedSimpArgs false

/-!
# Values of results: contraction of factors, Product::create
-/

namespace Tsym

open Expr

variable {D : Type} [Flt D] [LawfulFlt D] {E : Eng D} {σ : Asg}

/-! ## Powers of trigonometric functions -/

theorem isContractable_wp {C : Cond D → Prop} {p : Expr D} :
    wp C (isContractableTrigFctPower p) fun b => b = true →
      ∃ f a, p.base = .fn f a ∧ (f = .sin ∨ f = .cos ∨ f = .tan) := by
  unfold isContractableTrigFctPower
  refine wp_ite (fun _ => ?_) fun _ => wp_pure (by simp)
  refine wp_bind wp_true fun n _ => ?_
  split
  · rename_i h; exact wp_pure fun _ => ⟨_, _, h, by simp⟩
  · rename_i h; exact wp_pure fun _ => ⟨_, _, h, by simp⟩
  · rename_i h; exact wp_pure fun _ => ⟨_, _, h, by simp⟩
  · exact wp_pure (by simp)

/-- Two powers of trigonometric functions with the same argument. -/
def TrigPair (f1 f2 : Expr D) : Prop :=
  ∃ g1 g2 a1 a2, f1.base = .fn g1 a1 ∧ f2.base = .fn g2 a2 ∧ (g1 = .sin ∨ g1 = .cos ∨ g1 = .tan) ∧
    (g2 = .sin ∨ g2 = .cos ∨ g2 = .tan) ∧ isEqual a1 a2 = true

theorem areContractable_wp {C : Cond D → Prop} {f1 f2 : Expr D} :
    wp C (areContractableTrigFctPowers f1 f2) fun b => b = true → TrigPair f1 f2 := by
  unfold areContractableTrigFctPowers
  refine wp_bind isContractable_wp fun b1 h1 => ?_
  refine wp_ite (fun hb1 => ?_) fun _ => wp_pure (by simp)
  refine wp_bind isContractable_wp fun b2 h2 => ?_
  refine wp_ite (fun hb2 => ?_) fun _ => wp_pure (by simp)
  obtain ⟨g1, a1, e1, k1⟩ := h1 hb1
  obtain ⟨g2, a2, e2, k2⟩ := h2 hb2
  rw [e1, e2]
  simp only [operands]
  exact wp_pure fun h => ⟨g1, g2, a1, a2, e1, e2, k1, k2, h⟩

theorem trigSign_wp (hE : Sound E) (hσ : σ.Respects) {f : Fn} (hf : f ≠ .log) {arg : Expr D} {x v : ℝ}
    (ha : den σ arg = some x) (hv : Spec.fn f x = some v) :
    wp (Cond.holds σ) (trigSign E f arg) fun b => b = true → 0 ≤ v := by
  unfold trigSign
  refine wp_whenTrue ?_
  exact wp_bind (hE.trig hσ hf ha hv) fun t ht => hE.isPos hσ ht

theorem Spec.tan_some {x v : ℝ} (h : Spec.tan x = some v) : Real.cos x ≠ 0 ∧ v = Real.tan x := by
  unfold Spec.tan at h
  split at h
  · simp at h; exact ⟨‹_›, h.symm⟩
  · simp at h

theorem Spec.tan_def {x : ℝ} (h : Real.cos x ≠ 0) : Spec.tan x = some (Real.tan x) := by
  unfold Spec.tan
  rw [if_pos h]

theorem trigReplacement_vl (hE : Sound E) (hσ : σ.Respects) {p s c a : Expr D} {g : Fn} {x y v A : ℝ}
    (hs : den σ s = some (Real.sin A)) (hc : den σ c = some (Real.cos A)) (hb : p.base = .fn g a)
    (hg : g = .sin ∨ g = .cos ∨ g = .tan) (hx : Spec.fn g A = some x) (he : den σ p.exp = some y)
    (hp : Spec.pow x y = some v) : Vl σ (trigFunctionPowerReplacement E p s c) v := by
  unfold trigFunctionPowerReplacement
  rw [hb]
  rcases hg with rfl | rfl | rfl
  · simp only [Spec.fn, Option.some.injEq] at hx
    subst hx
    exact hE.pow hσ hs he hp
  · simp only [Spec.fn, Option.some.injEq] at hx
    subst hx
    exact hE.pow hσ hc he hp
  · obtain ⟨hne, rfl⟩ := Spec.tan_some hx
    refine wp_bind (oneOver_vl hE hσ hc hne) fun o ho => ?_
    refine wp_bind (hE.prod hσ (denProd_two hs ho)) fun q hq => ?_
    rw [← div_eq_mul_inv, ← Real.tan_eq_sin_div_cos] at hq
    exact hE.pow hσ hq he hp

theorem tan_pow {A n s c : ℝ} (hs : Spec.pow (Real.sin A) n = some s)
    (hc : Spec.pow (Real.cos A) (-n) = some c) (h : 0 < n ∨ Real.cos A ≠ 0) :
    Real.cos A ≠ 0 ∧ Spec.pow (Real.tan A) n = some (s * c) := by
  have hne : Real.cos A ≠ 0 := by
    rcases h with h | h
    · intro h0
      rw [h0] at hc
      have := (Spec.zero_pow_of hc).2
      linarith
    · exact h
  refine ⟨hne, ?_⟩
  have k1 := Spec.pow_neg hc hne
  rw [neg_neg] at k1
  have k2 := Spec.pow_inv k1 hne
  rw [inv_inv] at k2
  rw [Real.tan_eq_sin_div_cos, div_eq_mul_inv]
  exact Spec.pow_mul hs k2

theorem tanOf_vl (hE : Sound E) (hσ : σ.Respects) {arg n : Expr D} {A y s c : ℝ}
    (harg : den σ arg = some A) (hn : den σ n = some y) (hs : Spec.pow (Real.sin A) y = some s)
    (hc : Spec.pow (Real.cos A) (-y) = some c) :
    VlProd σ (do
      M.log (.or (.pos n) (.nz (.fn .cos arg)))
      let t ← E.trigCreate .tan arg
      let p ← E.powCreate t n
      pure [p]) (s * c) := by
  refine wp_bind (P := fun _ => Cond.holds σ (.or (.pos n) (.nz (.fn .cos arg)))) (wp_log fun h => h)
    fun _ h => ?_
  have h' : 0 < y ∨ Real.cos A ≠ 0 := by
    rcases h with ⟨w, h1, h2⟩ | ⟨w, h1, h2⟩
    · rw [hn] at h1; cases h1; exact .inl h2
    · rw [den_fn] at h1
      obtain ⟨z, hz, h1⟩ := h1
      rw [harg] at hz; cases hz
      simp only [Spec.fn, Option.some.injEq] at h1
      subst h1
      exact .inr h2
  obtain ⟨hne, hp⟩ := tan_pow hs hc h'
  refine wp_bind (hE.trig (f := .tan) hσ (by simp) harg (Spec.tan_def hne)) fun t ht => ?_
  refine wp_bind (hE.pow hσ ht hn hp) fun p hp => wp_pure ?_
  rw [denProd_one, hp]

theorem contractToTan_vl (hE : Sound E) (hσ : σ.Respects) {τ : Asg} {r1 r2 arg : Expr D} {ss sc : Sym}
    {A v w : ℝ} (hτ : ∀ s, s ≠ ss → s ≠ sc → τ s = σ s) (hs : τ ss = Real.sin A) (hc : τ sc = Real.cos A)
    (harg : den σ arg = some A) (h1 : den τ r1 = some v) (h2 : den τ r2 = some w)
    (hz : ∀ y1 y2, den τ r1.exp = some y1 → den τ r2.exp = some y2 → y1 = -y2)
    (hn : Within (fun s => s ≠ ss ∧ s ≠ sc) r1.exp) :
    VlProd σ (contractToTan E r1 r2 (.sym ss) (.sym sc) arg) (v * w) := by
  unfold contractToTan
  obtain ⟨x1, y1, hx1, hy1, hp1⟩ := den_base_exp h1
  obtain ⟨x2, y2, hx2, hy2, hp2⟩ := den_base_exp h2
  have hy := hz y1 y2 hy1 hy2
  subst hy
  have hexp : den σ r1.exp = some (-y2) := by
    rw [← hy1]
    exact den_congr _ fun s ho => (hτ s (hn s ho).1 (hn s ho).2).symm
  refine wp_bind (P := fun n => (isEqual r1.base (.sym sc) = true → den σ n = some y2) ∧
    (isEqual r1.base (.sym sc) = false → den σ n = some (-y2))) ?_ fun n hn' => ?_
  · refine wp_ite (fun h => ?_) fun h => wp_pure ⟨fun h' => absurd h' h, fun _ => hexp⟩
    refine wp_mono (minus_vl hE hσ hexp) fun n hn => ⟨fun _ => by rw [hn, neg_neg], fun h' => ?_⟩
    rw [h] at h'; cases h'
  refine wp_bind (wp_failIf fun h => h) fun _ h => ?_
  simp only [Bool.not_eq_false', Bool.or_eq_true, Bool.and_eq_true] at h
  by_cases hb : isEqual r1.base (.sym sc) = true
  · have hN := hn'.1 hb
    have e1 := isEqual_den τ _ _ hb
    rw [den_sym, hc, hx1] at e1
    cases e1
    rcases h with h | h
    · have e2 := isEqual_den τ _ _ h.2
      rw [den_sym, hs, hx2] at e2
      cases e2
      rw [mul_comm]
      exact tanOf_vl hE hσ harg hN hp2 hp1
    · have e1' := isEqual_den τ _ _ h.1
      rw [den_sym, hs, hx1] at e1'
      have e2 := isEqual_den τ _ _ h.2
      rw [den_sym, hc, hx2] at e2
      simp only [Option.some.injEq] at e1' e2
      subst e2
      rw [mul_comm]
      refine tanOf_vl hE hσ harg hN ?_ hp1
      rwa [← e1']
  · have hN := hn'.2 (by simpa using hb)
    rcases h with h | h
    · exact absurd h.1 hb
    · have e1 := isEqual_den τ _ _ h.1
      rw [den_sym, hs, hx1] at e1
      have e2 := isEqual_den τ _ _ h.2
      rw [den_sym, hc, hx2] at e2
      cases e1; cases e2
      exact tanOf_vl hE hσ harg hN hp1 (by rwa [neg_neg])

/-- Values of a list after replacing a symbol. -/
theorem substList_vl (hE : Sound E) (hσ : σ.Respects) {τ : Asg} {t : Sym} {r : Expr D} {w : ℝ}
    (hτ : ∀ s, s ≠ t → σ s = τ s) (hr : den σ r = some w) (ht : τ t = w) {l : List (Expr D)} {v : ℝ}
    (h : denProd τ l = some v) : VlProd σ (substList E (.sym t) r l) v := by
  unfold substList
  induction l generalizing v with
  | nil =>
    unfold M.mapL
    exact wp_pure h
  | cons a l ih =>
    unfold M.mapL
    obtain ⟨x, y, hx, hy, rfl⟩ := denProd_cons.1 h
    refine wp_bind (hE.subst hσ (σ' := τ) (v := x) ?_ ?_ hx) fun b hb => ?_
    · intro y hy
      refine hτ y ?_
      rintro rfl
      simp [isEqual] at hy
    · intro w' hw'
      rw [den_sym, ht] at hw'
      cases hw'
      exact hr
    · exact wp_bind (ih hy) fun r hr => wp_pure (denProd_cons.2 ⟨_, _, hb, hr, rfl⟩)

theorem denProd_length_two {a b : Expr D} {l : List (Expr D)} (h : l.length = 1)
    (hb : b = (a :: l).getLast (by simp)) : a :: l = [a, b] := by
  match l, h with
  | [x], _ => simp at hb; rw [hb]

/-- A symbol with a fresh number does not occur. -/
theorem fresh_within {S : Sym → Prop} {e : Expr D} {used : List Nat} {k : Nat} (hk : k ∉ used)
    (hu : ∀ i ∈ e.tmpIds, i ∈ used) (p : Bool) (hS : ∀ s, s ≠ ⟨.tmp k, p⟩ → S s) : Within S e := by
  intro s hs
  refine hS s ?_
  rintro rfl
  exact hk (hu k (mem_tmpIds e _ hs k (by simp [Sym.tmpId])))

theorem tmpIds_base {e : Expr D} : ∀ i ∈ e.base.tmpIds, i ∈ e.tmpIds := by
  unfold Expr.base
  split
  · intro i hi; simp [tmpIds, hi]
  · exact fun i h => h

theorem tmpIds_exp {e : Expr D} : ∀ i ∈ e.exp.tmpIds, i ∈ e.tmpIds := by
  unfold Expr.exp
  split
  · intro i hi; simp [tmpIds, hi]
  · intro i hi; simp [one, tmpIds] at hi

theorem contractTrigFctPowers_vl (hE : Sound E) (hσ : σ.Respects) {f1 f2 : Expr D} {v w : ℝ}
    (h1 : den σ f1 = some v) (h2 : den σ f2 = some w) (hp : TrigPair f1 f2) :
    VlProd σ (contractTrigFctPowers E f1 f2) (v * w) := by
  obtain ⟨g1, g2, a1, a2, e1, e2, k1, k2, heq⟩ := hp
  obtain ⟨x1, y1, hx1, hy1, hp1⟩ := den_base_exp h1
  obtain ⟨x2, y2, hx2, hy2, hp2⟩ := den_base_exp h2
  rw [e1] at hx1
  rw [e2] at hx2
  obtain ⟨A, hA, hg1⟩ := den_fn.1 hx1
  obtain ⟨A', hA', hg2⟩ := den_fn.1 hx2
  obtain rfl : A = A' := by
    have := isEqual_den σ _ _ heq
    rw [hA, hA'] at this
    cases this; rfl
  unfold contractTrigFctPowers
  refine wp_bind (P := fun a => a = a1) (by unfold trigArg; rw [e1]; exact wp_pure rfl) ?_
  rintro arg rfl
  refine wp_bind (trigSign_wp hE hσ (f := .sin) (by simp) hA rfl) fun ps hps => ?_
  refine wp_bind (trigSign_wp hE hσ (f := .cos) (by simp) hA rfl) fun pc hpc => ?_
  dsimp only
  have hks := hE.syms.ok.fresh (f1.tmpIds ++ f2.tmpIds)
  generalize E.cfg.fresh (f1.tmpIds ++ f2.tmpIds) = ks at hks
  have hkc := hE.syms.ok.fresh (ks :: (f1.tmpIds ++ f2.tmpIds))
  generalize E.cfg.fresh (ks :: (f1.tmpIds ++ f2.tmpIds)) = kc at hkc
  simp only [List.mem_cons, List.mem_append, not_or] at hkc hks
  have hssc : (⟨.tmp ks, ps⟩ : Sym) ≠ ⟨.tmp kc, pc⟩ := by
    intro h; simp at h; exact hkc.1 h.1.symm
  generalize hss : (⟨.tmp ks, ps⟩ : Sym) = ss at hssc
  generalize hsc : (⟨.tmp kc, pc⟩ : Sym) = sc at hssc
  -- the assignments
  set σ1 := extend σ [(sc, Expr.fn .cos arg)] with hσ1
  set τ := extend σ [(ss, Expr.fn .sin arg), (sc, Expr.fn .cos arg)] with hτ
  have rσ1 : σ1.Respects := extend_respects hσ _
  have rτ : τ.Respects := extend_respects hσ _
  have hfree1 : ∀ s, s ≠ sc → σ1 s = σ s := fun s hs => extend_other (by simpa using hs)
  have hfree : ∀ s, s ≠ ss → s ≠ sc → τ s = σ s := fun s h1 h2 =>
    extend_other (by simp [h1, h2])
  have hτ1 : ∀ s, s ≠ ss → σ1 s = τ s := by
    intro s hs
    rw [hτ, extend, Function.update_of_ne hs]
  have hcos : σ1 sc = Real.cos A := by
    rw [hσ1]
    simp only [extend, Function.update_self]
    have : den σ (Expr.fn .cos arg) = some (Real.cos A) := den_fn.2 ⟨A, hA, rfl⟩
    rw [this]
    simp only [Option.getD_some]
    split
    · rename_i h
      rw [← hsc] at h
      exact max_eq_left (hpc h)
    · rfl
  have argIds : ∀ i ∈ arg.tmpIds, i ∈ f1.tmpIds := by
    intro i hi
    refine tmpIds_base i ?_
    rw [e1]
    simpa [tmpIds] using hi
  have hA1 : den σ1 arg = some A := by
    rw [← hA]
    refine den_congr _ (fresh_within (k := kc) (used := f1.tmpIds) hkc.2.1 argIds pc fun s hs => hfree1 s ?_)
    rwa [hsc] at hs
  have hsin : τ ss = Real.sin A := by
    rw [hτ, extend]
    simp only [Function.update_self]
    rw [← hσ1]
    have : den σ1 (Expr.fn .sin arg) = some (Real.sin A) := den_fn.2 ⟨A, hA1, rfl⟩
    rw [this]
    simp only [Option.getD_some]
    split
    · rename_i h
      rw [← hss] at h
      exact max_eq_left (hps h)
    · rfl
  have hcosτ : τ sc = Real.cos A := by rw [← hτ1 sc hssc.symm, hcos]
  have free : ∀ e : Expr D, (∀ i ∈ e.tmpIds, i ∈ f1.tmpIds ∨ i ∈ f2.tmpIds) → Within (fun s => s ≠ ss ∧ s ≠ sc) e := by
    intro e he s hs
    constructor
    · rintro rfl
      have := he ks (mem_tmpIds e _ hs ks (by rw [← hss]; simp [Sym.tmpId]))
      tauto
    · rintro rfl
      have := he kc (mem_tmpIds e _ hs kc (by rw [← hsc]; simp [Sym.tmpId]))
      tauto
  have same : ∀ e : Expr D, (∀ i ∈ e.tmpIds, i ∈ f1.tmpIds ∨ i ∈ f2.tmpIds) → den τ e = den σ e :=
    fun e he => den_congr _ fun s hs => hfree s (free e he s hs).1 (free e he s hs).2
  have hy1' : den τ f1.exp = some y1 := by
    rw [same _ fun i hi => .inl (tmpIds_exp i hi), hy1]
  have hy2' : den τ f2.exp = some y2 := by
    rw [same _ fun i hi => .inr (tmpIds_exp i hi), hy2]
  refine wp_bind (P := fun l => denProd τ l = some (v * w) ∧ ∀ x ∈ l, Within (fun s => s ≠ ss ∧ s ≠ sc) x.exp)
    (wp_withinM (wp_and ?_ (wp_of_true (trigReplaced_tame hE.syms (free f1 fun i hi => .inl hi) (free f2 fun i hi => .inr hi)))))
    fun res hres => ?_
  · show wp (Cond.holds τ) _ _
    have hS : den τ (Expr.sym ss : Expr D) = some (Real.sin A) := by rw [den_sym, hsin]
    have hC : den τ (Expr.sym sc : Expr D) = some (Real.cos A) := by rw [den_sym, hcosτ]
    refine wp_bind (trigReplacement_vl hE rτ hS hC e1 k1 hg1 hy1' hp1) fun r1 hr1 => ?_
    refine wp_bind (trigReplacement_vl hE rτ hS hC e2 k2 hg2 hy2' hp2) fun r2 hr2 => ?_
    exact simplTwoFactors_vl hE rτ hr1 hr2
  obtain ⟨hres, hexp⟩ := hres
  split
  · exact wp_err
  rename_i r rs
  refine wp_bind (P := fun b => b = true → rs.length = 1 ∧ ∀ z1 z2, den τ r.exp = some z1 →
      den τ ((r :: rs).getLast (by simp)).exp = some z2 → z1 = -z2) ?_ fun b hb => ?_
  · refine wp_ite (fun hl => ?_) fun _ => wp_pure (by simp)
    refine wp_whenTrue (wp_withinM ?_)
    show wp (Cond.holds τ) _ _
    by_cases hd : ∃ z2, den τ ((r :: rs).getLast (by simp)).exp = some z2
    · obtain ⟨z2, hz2⟩ := hd
      refine wp_bind (minus_vl hE rτ hz2) fun m hm => wp_pure fun hb => ⟨hl, ?_⟩
      intro a b ha hb'
      have := isEqual_den τ _ _ hb
      rw [ha, hm] at this
      rw [hz2] at hb'
      cases hb'; cases this; rfl
    · refine wp_bind wp_true fun m _ => wp_pure fun _ => ⟨hl, fun a b _ hb' => ?_⟩
      exact absurd ⟨b, hb'⟩ hd
  refine wp_ite (fun hbt => ?_) fun _ => ?_
  · obtain ⟨hl, hz⟩ := hb hbt
    have hlist := denProd_length_two (a := r) hl rfl
    rw [hlist] at hres
    obtain ⟨p1, p2, hq1, hq2, hpq⟩ := denProd_pair hres
    rw [hpq]
    exact contractToTan_vl hE hσ hfree hsin hcosτ hA hq1 hq2 hz (hexp r (by simp))
  · refine wp_bind (P := fun l => denProd σ1 l = some (v * w)) (wp_withinM ?_) fun l1 hl1 => ?_
    · show wp (Cond.holds σ1) _ _
      refine wp_bind (hE.trig rσ1 (f := .sin) (by simp) hA1 rfl) fun s hs => ?_
      exact substList_vl hE rσ1 hτ1 hs hsin hres
    refine wp_bind (hE.trig hσ (f := .cos) (by simp) hA rfl) fun c hc => ?_
    refine wp_bind (substList_vl hE hσ (fun s hs => (hfree1 s hs).symm) hc hcos hl1) fun l2 hl2 => ?_
    split
    · exact wp_err
    · rename_i a l
      refine wp_ite (fun _ => ?_) fun _ => wp_pure hl2
      refine wp_bind (wp_failIf fun h => h) fun _ h => wp_pure ?_
      simp only [bne_eq_false_iff_eq] at h
      have hlist := denProd_length_two (a := a) h rfl
      rw [hlist] at hl2
      obtain ⟨p1, p2, hq1, hq2, hpq⟩ := denProd_pair hl2
      rw [hpq, mul_comm]
      exact denProd_two hq2 hq1

/-! ## Contraction -/

/-- The value of the state of `contract`. -/
def ContractState.Is (σ : Asg) (s : ContractState D) (v : ℝ) : Prop :=
  denProd σ (s.pre ++ s.x :: (s.mid ++ s.rest)) = some v

theorem contractStart_is {l : List (Expr D)} {v : ℝ} (h : denProd σ l = some v) :
    (∀ s, contractStart l = .inl s → s.Is σ v) ∧ ∀ r, contractStart l = .inr r → denProd σ r = some v := by
  unfold contractStart
  split
  · exact ⟨by simp, fun r hr => by cases hr; exact h⟩
  · refine ⟨fun s hs => ?_, by simp⟩
    cases hs
    simpa [ContractState.Is] using h

theorem contractStep_vl {check : Expr D → Expr D → M D Bool}
    {simpl : Expr D → Expr D → M D (List (Expr D))}
    (h : ∀ {a b : Expr D} {x y : ℝ}, den σ a = some x → den σ b = some y →
      wp (Cond.holds σ) (check a b) fun r => r = true → VlProd σ (simpl a b) (x * y))
    {s : ContractState D} {v : ℝ} (hs : s.Is σ v) :
    wp (Cond.holds σ) (contractStep check simpl s) fun r =>
      (∀ s', r = .inl s' → s'.Is σ v) ∧ ∀ l, r = .inr l → denProd σ l = some v := by
  obtain ⟨pre, x, mid, rest, found, changed⟩ := s
  simp only [ContractState.Is] at hs ⊢
  unfold contractStep
  dsimp only
  split
  · rename_i y rest
    have hskip : denProd σ (pre ++ x :: (mid ++ [y] ++ rest)) = some v := by simpa using hs
    obtain ⟨vp, vr, hvp, hvr, rfl⟩ := denProd_append.1 hs
    obtain ⟨vx, vq, hvx, hvq, rfl⟩ := denProd_cons.1 hvr
    obtain ⟨vm, vt, hvm, hvt, rfl⟩ := denProd_append.1 hvq
    obtain ⟨vy, vs, hvy, hvs, rfl⟩ := denProd_cons.1 hvt
    refine wp_bind (h hvx hvy) fun b hb => ?_
    refine wp_ite (fun hbt => ?_) fun _ => wp_pure ⟨fun s' hs' => by cases hs'; exact hskip, by simp⟩
    refine wp_bind (P := fun p => (∀ c ∈ p.2, Cond.holds σ c) → denProd σ p.1 = some (vx * vy))
      (wp_capture fun a cs hm hc => hb hbt a cs hm hc) fun p hp => ?_
    split
    · exact wp_err
    · rename_i r rs hrs
      refine wp_ite (fun _ => wp_pure ⟨fun s' hs' => by cases hs'; exact hskip, by simp⟩) fun _ => ?_
      refine wp_bind (P := fun _ => denProd σ p.1 = some (vx * vy)) (wp_emit fun hc => hp hc) fun _ hval => wp_pure ⟨fun s' hs' => ?_, by simp⟩
      cases hs'
      rw [hrs] at hval
      obtain ⟨vr, vrs, hvr, hvrs, hv⟩ := denProd_cons.1 hval
      simp only [List.nil_append, List.append_assoc]
      refine denProd_append.2 ⟨_, _, hvp, denProd_cons.2 ⟨_, _, hvr, denProd_append.2 ⟨_, _, hvrs,
        denProd_append.2 ⟨_, _, hvm, hvs, rfl⟩, rfl⟩, rfl⟩, ?_⟩
      rw [show vx * (vm * (vy * vs)) = vx * vy * (vm * vs) by ring, hv]
      ring
  · simp only [List.append_nil] at hs
    refine wp_ite (fun _ => wp_pure ⟨fun s' hs' => by cases hs'; simpa using hs, by simp⟩) fun _ => ?_
    split
    · exact wp_pure ⟨fun s' hs' => by cases hs'; simpa using hs, by simp⟩
    · refine wp_ite (fun _ => wp_pure ?_) fun _ => wp_pure ⟨by simp, fun l hl => by cases hl; exact hs⟩
      exact contractStart_is hs

theorem contract_vl {check : Expr D → Expr D → M D Bool}
    {simpl : Expr D → Expr D → M D (List (Expr D))}
    (h : ∀ {a b : Expr D} {x y : ℝ}, den σ a = some x → den σ b = some y →
      wp (Cond.holds σ) (check a b) fun r => r = true → VlProd σ (simpl a b) (x * y))
    {l : List (Expr D)} {v : ℝ} (hl : denProd σ l = some v) : VlProd σ (contract E check simpl l) v := by
  unfold contract
  have hst := contractStart_is hl
  split
  · rename_i r hr
    exact wp_pure (hst.2 r hr)
  · rename_i s hs
    exact wp_loop (I := fun s => s.Is σ v) (fun s' hs' => contractStep_vl h hs') _ _ (hst.1 s hs)

theorem contractTrigonometrics_vl (hE : Sound E) (hσ : σ.Respects) {l : List (Expr D)} {v : ℝ}
    (hl : denProd σ l = some v) : VlProd σ (contractTrigonometrics E l) v := by
  unfold contractTrigonometrics
  refine contract_vl (fun {a b x y} ha hb => ?_) hl
  exact wp_mono areContractable_wp fun r hr hrt => contractTrigFctPowers_vl hE hσ ha hb (hr hrt)

theorem productOfNumerics_den {l : List (Expr D)} : ∀ {v : ℝ} (acc : Number D), denProd σ l = some v →
    ∃ w, denProd σ (l.filter fun e => !e.isNumeric) = some w ∧
      acc.val * v = (productOfNumerics acc l).val * w := by
  induction l with
  | nil =>
    intro v acc h
    simp only [denProd, Option.some.injEq] at h
    subst h
    exact ⟨1, rfl, rfl⟩
  | cons a l ih =>
    intro v acc h
    obtain ⟨x, y, hx, hy, rfl⟩ := denProd_cons.1 h
    by_cases ha : a.isNumeric = true
    · cases a <;> simp [isNumeric] at ha
      rename_i n
      obtain ⟨w, hw, hw'⟩ := ih (acc.mul n) hy
      refine ⟨w, by simpa [isNumeric] using hw, ?_⟩
      simp only [den_num, Option.some.injEq] at hx
      subst hx
      rw [productOfNumerics, ← hw', Number.val_mul]
      ring
    · obtain ⟨w, hw, hw'⟩ := ih acc hy
      refine ⟨x * w, ?_, ?_⟩
      · simp only [ha, List.filter_cons, Bool.not_false]
        simpa using denProd_cons.2 ⟨_, _, hx, hw, rfl⟩
      · have : productOfNumerics acc (a :: l) = productOfNumerics acc l := by
          cases a <;> simp_all [isNumeric, productOfNumerics]
        rw [this]
        linear_combination x * hw'

theorem contractNumerics_den {l : List (Expr D)} {v : ℝ} (h : denProd σ l = some v) :
    denProd σ (contractNumerics l) = some v := by
  obtain ⟨w, hw, hw'⟩ := productOfNumerics_den 1 h
  rw [Number.val_one, one_mul] at hw'
  unfold contractNumerics
  split
  · exact denProd_cons.2 ⟨_, _, den_num _, hw, hw'⟩
  · rename_i hn
    simp only [Bool.or_eq_true, not_or, Bool.not_eq_true', Bool.not_eq_false] at hn
    have := hn.1
    rw [Number.eqv_iff, Number.val_one] at this
    rw [hw, hw', this, one_mul]

theorem set_perm {l : List (Expr D)} {i : Nat} (h : i < l.length) (a : Expr D) :
    (l.set i a).Perm (a :: l.eraseIdx i) := by
  have := List.getElem_cons_eraseIdx_perm (l := l.set i a) (n := i) (by simpa using h)
  rw [List.getElem_set_self, List.eraseIdx_set_eq] at this
  exact this.symm

/-- Two elements of a list, and the rest. -/
theorem two_perm {l : List (Expr D)} {i j : Nat} {x y : Expr D} (hij : i ≠ j)
    (hx : l[i]? = some x) (hy : l[j]? = some y) : ∃ rest, l.Perm (x :: y :: rest) ∧
      ∀ a, ((l.set i a).eraseIdx j).Perm (a :: rest) ∧
        ∀ b, ((l.set i a).set j b).Perm (a :: b :: rest) := by
  obtain ⟨hi, rfl⟩ := List.getElem?_eq_some_iff.1 hx
  obtain ⟨hj, rfl⟩ := List.getElem?_eq_some_iff.1 hy
  have hm : l[j] ∈ l.eraseIdx i := by
    rw [List.mem_eraseIdx_iff_getElem]
    exact ⟨j, hj, hij.symm, rfl⟩
  obtain ⟨s, t, hst⟩ := List.append_of_mem hm
  have he : (l.eraseIdx i).Perm (l[j] :: (s ++ t)) := by
    rw [hst]
    exact List.perm_middle
  have hset : ∀ a, (l.set i a).Perm (a :: l[j] :: (s ++ t)) := fun a =>
    (set_perm hi a).trans (he.cons a)
  have her : ∀ a, ((l.set i a).eraseIdx j).Perm (a :: (s ++ t)) := by
    intro a
    have h1 := List.getElem_cons_eraseIdx_perm (l := l.set i a) (n := j) (by simpa using hj)
    rw [List.getElem_set_ne hij] at h1
    exact ((h1.trans (hset a)).trans (.swap _ _ _)).cons_inv
  refine ⟨s ++ t, ?_, fun a => ⟨her a, fun b => ?_⟩⟩
  · exact (List.getElem_cons_eraseIdx_perm hi).symm.trans (he.cons _)
  · refine (set_perm (by simpa using hj) b).trans ?_
    exact ((her a).cons b).trans (.swap _ _ _)

theorem contractConstStep_vl (hE : Sound E) (hσ : σ.Respects) {s : List (Expr D) × Nat × Nat} {v : ℝ}
    (hs : denProd σ s.1 = some v) : wp (Cond.holds σ) (contractConstStep E s) fun r =>
      (∀ s', r = .inl s' → denProd σ s'.1 = some v) ∧ ∀ l, r = .inr l → denProd σ l = some v := by
  obtain ⟨u, i, j⟩ := s
  have skip : ∀ i' j', (∀ s' : List (Expr D) × Nat × Nat, (Sum.inl (u, i', j') : _ ⊕ List (Expr D)) = .inl s' →
      denProd σ s'.1 = some v) ∧ ∀ l : List (Expr D), (Sum.inl (u, i', j') : (List (Expr D) × Nat × Nat) ⊕ _) = .inr l →
      denProd σ l = some v := fun i' j' => ⟨fun s' h => by cases h; exact hs, by simp⟩
  unfold contractConstStep
  dsimp only
  split
  · exact wp_pure ⟨by simp, fun l hl => by cases hl; exact hs⟩
  rename_i x hx
  split
  · exact wp_pure (skip _ _)
  rename_i y hy
  refine wp_ite (fun _ => wp_pure (skip _ _)) fun hij => wp_ite (fun _ => ?_) fun _ => wp_pure (skip _ _)
  obtain ⟨rest, hp, hq⟩ := two_perm hij hx hy
  simp only at hs
  rw [denProd_perm hp] at hs
  obtain ⟨vx, w, hvx, hw, rfl⟩ := denProd_cons.1 hs
  obtain ⟨vy, vr, hvy, hvr, rfl⟩ := denProd_cons.1 hw
  refine wp_bind (simplTwoConst_vl hE hσ hvx hvy) fun res hres => ?_
  split
  · rename_i a
    have hval : denProd σ ((u.set i a).eraseIdx j) = some (vx * (vy * vr)) := by
      rw [denProd_perm (hq a).1]
      rw [denProd_one] at hres
      exact denProd_cons.2 ⟨_, _, hres, hvr, by ring⟩
    refine wp_ite (fun _ => wp_pure ⟨fun s' h => by cases h; exact hval, by simp⟩) fun _ => ?_
    exact wp_ite (fun _ => wp_err) fun _ => wp_pure ⟨fun s' h => by cases h; exact hval, by simp⟩
  · rename_i a b
    refine wp_pure ⟨fun s' h => ?_, by simp⟩
    cases h
    simp only
    rw [denProd_perm ((hq a).2 b)]
    obtain ⟨va, vb, hva, hvb, hab⟩ := denProd_pair hres
    exact denProd_cons.2 ⟨_, _, hva, denProd_cons.2 ⟨_, _, hvb, hvr, rfl⟩, by rw [← mul_assoc, hab]; ring⟩
  · exact wp_pure (skip _ _)

theorem contractConst_vl (hE : Sound E) (hσ : σ.Respects) {l : List (Expr D)} {v : ℝ}
    (hl : denProd σ l = some v) : VlProd σ (contractConst E l) v := by
  unfold contractConst
  exact wp_loop (I := fun s => denProd σ s.1 = some v) (fun s hs => contractConstStep_vl hE hσ hs) _ _ hl

theorem prepareConst_vl (hE : Sound E) (hσ : σ.Respects) {l : List (Expr D)} {v : ℝ}
    (hl : denProd σ l = some v) : VlProd σ (prepareConst E l) v := by
  unfold prepareConst
  refine wp_bind (contractConst_vl (v := v) hE hσ (contractNumerics_den ?_)) fun u hu => ?_
  · rw [denProd_perm (hE.syms.ok.sort _ _), hl]
  refine wp_bind (contract_vl (fun {a b x y} ha hb => ?_) hu) fun u hu => ?_
  · exact wp_pure fun h => simplTwoEqualExp_vl hE hσ ha hb h
  · exact contract_vl (fun {a b x y} ha hb => wp_pure fun h => simplTwoEqualExpDenom_vl hE hσ ha hb h) hu

theorem simplPreparedFactors_vl (hE : Sound E) (hσ : σ.Respects) {l : List (Expr D)} {v : ℝ}
    (hl : denProd σ l = some v) : VlProd σ (simplPreparedFactors E l) v := by
  unfold simplPreparedFactors
  split
  · exact wp_err
  · exact wp_pure hl
  · obtain ⟨a, b, ha, hb, rfl⟩ := denProd_pair hl
    exact simplTwoFactors_vl hE hσ ha hb
  · obtain ⟨a, b, ha, hb, rfl⟩ := denProd_cons.1 hl
    refine wp_bind (hE.simplProd hσ hb) fun r hr => ?_
    exact hE.mergeProd hσ (by rw [denProd_one, ha]) hr

theorem simplProd_vl (hE : Sound E) (hσ : σ.Respects) {l : List (Expr D)} {v : ℝ}
    (hl : denProd σ l = some v) : VlProd σ (simplProd E l) v := by
  unfold simplProd
  refine wp_bind (extractProducts_vl hl) fun u hu => ?_
  refine wp_bind (contractTrigonometrics_vl hE hσ hu) fun u hu => ?_
  split
  · obtain ⟨a, b, ha, hb, rfl⟩ := denProd_pair hu
    exact simplTwoFactors_vl hE hσ ha hb
  · exact wp_bind (prepareConst_vl hE hσ hu) fun u hu => simplPreparedFactors_vl hE hσ hu

theorem no_undef_prod {l : List (Expr D)} {v : ℝ} (h : denProd σ l = some v) : l.any isUndefined = false := by
  rw [List.any_eq_false]
  intro x hx
  obtain ⟨w, hw⟩ := den_mem_prod h x hx
  simp [not_undef hw]

theorem prodCreate_vl (hE : Sound E) (hσ : σ.Respects) {l : List (Expr D)} {v : ℝ}
    (hl : denProd σ l = some v) : Vl σ (prodCreate E l) v := by
  unfold prodCreate
  refine wp_ite (fun h => ?_) fun _ => wp_ite (fun h => wp_pure ?_) fun _ => ?_
  · rw [no_undef_prod hl] at h; cases h
  · obtain ⟨x, hx, hz⟩ := List.any_eq_true.1 h
    rw [denProd_zero hl hx (den_isZero hz), den_zero]
  split
  · rw [denProd_one] at hl
    exact wp_pure hl
  · refine wp_bind (hE.prodSimplify hσ hl) fun r hr => ?_
    split
    · rw [denProd] at hr
      exact wp_pure (by rw [den_one, hr])
    · rw [denProd_one] at hr
      exact wp_pure hr
    · exact wp_ite (fun _ => hE.expandAsProduct hσ hr) fun _ => wp_pure hr

end Tsym
