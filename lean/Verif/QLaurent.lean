import Verif.QPow

set_option autoImplicit false
set_option linter.unusedSectionVars false
set_option linter.unusedSimpArgs false
set_option linter.unusedVariables false

/-!
# Products and powers of sums of products of powers with rational exponents
-/

namespace Tsym

namespace Qf

open Expr
open scoped Classical

variable {D : Type} [Flt D] [LawfulFlt D] {cfg : Cfg D}

theorem qb_sym {s : Sym} (hs : s.id.Ok) : QB cfg (.sym s : Expr D) where
  shape := .inl ⟨s, rfl⟩
  good := Good.of_ops (by simp) (by simp) (by rintro t ⟨⟩; exact hs) (by simp) (by simp) (by simp) (by intro o ho; simp [operands] at ho)
  eval := by simp [numEval, pure, Except.pure]
  const := by simp [isConst]
  pos := ⟨_, by simp only [isPos]; exact tot_pure _⟩
  neg := ⟨_, by simp only [isNeg]; exact tot_pure _⟩

theorem QB.sym_ok {s : Sym} (h : QB cfg (.sym s : Expr D)) : s.id.Ok := (h.good.ord _ (occurs_iff.2 (.inl rfl))).2.2 s rfl

/-- Symbols and sums of products of powers of such; the exponents are positive but for symbols. -/
inductive XB (cfg : Cfg D) : Expr D → Prop
  | sym (s : Sym) (h : s.id.Ok) : XB cfg (.sym s)
  | sum (L : List (Mo D)) (h : SL cfg L) (h2 : 2 ≤ L.length) (hb : ∀ m ∈ L, ∀ f ∈ m.2, XB cfg f.1)
      (hp : ∀ m ∈ L, ∀ f ∈ m.2, (0 < f.2 ∧ f.2.den = 1) ∨ ∃ s, f.1 = .sym s) : XB cfg (.sum (L.map em))

/-- A factor of a Puiseux polynomial. -/
def LF (cfg : Cfg D) (f : Expr D × ℚ) : Prop := XB cfg f.1 ∧ ((0 < f.2 ∧ f.2.den = 1) ∨ ∃ s, f.1 = .sym s)

theorem XB.cases {b : Expr D} (h : XB cfg b) : (∃ s, b = .sym s) ∨
    ∃ L, SL cfg L ∧ 2 ≤ L.length ∧ (∀ m ∈ L, ∀ f ∈ m.2, LF cfg f) ∧ b = .sum (L.map em) := by
  cases h with
  | sym s _ => exact .inl ⟨s, rfl⟩
  | sum L h h2 hb hp => exact .inr ⟨L, h, h2, fun m hm f hf => ⟨hb m hm f hf, hp m hm f hf⟩, rfl⟩

theorem XB.of_el {L : List (Mo D)} (h : EL cfg Sb L) (h2 : 2 ≤ L.length) : XB cfg (.sum (L.map em)) := by
  refine .sum L h.sl h2 (fun m hm f hf => ?_) fun m hm f hf => .inr (h.sb m hm f hf)
  obtain ⟨s, hs⟩ := h.sb m hm f hf
  have := ((h.sl.sm m hm).facs f hf).base
  rw [hs] at this ⊢; exact .sym s this.sym_ok

/-- A product can be expanded if its factors can. -/
theorem XE.mexpr (hc : cfg.Ok) {q : ℚ} {P : List (Expr D × ℚ)} (h : ∀ f ∈ P, XE cfg (fac f)) :
    XE cfg (mexpr q P) := by
  rcases mexpr_cases q P with ⟨rfl, e⟩ | ⟨f, rfl, _, e⟩ | ⟨_, _, e⟩
  · rw [e]; exact (EP.num kl_sb q).xe hc
  · rw [e]; exact h f (by simp)
  · rw [e]
    obtain ⟨r, hr, er⟩ := tot_expandAsProduct_xe hc (l := rl q P) (by
      intro x hx
      unfold rl at hx
      rcases List.mem_append.1 hx with hx | hx
      · split at hx
        · simp at hx
        · rw [List.mem_singleton.1 hx]; exact (EP.num kl_sb q).xe hc
      · obtain ⟨f, hf, rfl⟩ := List.mem_map.1 hx; exact h f hf)
    refine ⟨r, ?_, er⟩
    simp only [expand]; exact tot_expandAsProduct hr

/-- Power::expandSumBaseIntExp, up to the reciprocal. -/
theorem tot_expand_powSum {l : List (Expr D)} {k : ℤ} {r s : Expr D}
    (hr : Tot cfg (fun E => expandAsProduct E (List.replicate k.natAbs (.sum l))) r)
    (hs : Tot cfg (fun E => if k < 0 then E.oneOver r else pure r) s) :
    Tot cfg (fun E => expand E (.pow (.sum l) (int k))) s := by
  simp only [expand]
  refine tot_bind (tot_lift (a := true) (isInteger_int _)) ?_
  simp only [if_true, expandSumBaseIntExp]
  refine tot_bind (a := (.rat k : Number D)) ?_ ?_
  · simp only [NumTrigo.evalE]
    exact tot_bind (tot_lift (a := some (.rat k)) (by simp [int, numEval, pure, Except.pure])) (tot_pure _)
  · simp only [Number.numerator, Rat.num_intCast]
    exact tot_bind (tot_expandAsProduct hr) hs

theorem xe_sum (hc : cfg.Ok) {L : List (Mo D)} (hL : SL cfg L) (h2 : 2 ≤ L.length) (h : ∀ m ∈ L, XE cfg (em m)) :
    XE cfg (.sum (L.map em)) := by
  obtain ⟨bs, hbs, f2⟩ := tot_mapL_ex (cfg := cfg) (f := fun E e => E.expand e) (l := L.map em)
    (Q := fun _ b => EP cfg Sb b) (by
    intro a ha
    obtain ⟨m, hm, rfl⟩ := List.mem_map.1 ha
    obtain ⟨r, hr, h⟩ := h m hm
    exact ⟨r, tot_expand hr, h⟩)
  have hl : bs.length = (L.map (em : Mo D → Expr D)).length := f2.length_eq.symm
  obtain ⟨r, hr, er, pr⟩ := tot_sum_ep hc (es := bs) (K := Sb) (by
    intro e; rw [e] at hl; simp at hl; rw [← hl] at h2; simp at h2) (fun e he => by
    obtain ⟨a, _, h⟩ := forall2_mem f2 e he; exact h)
  refine ⟨r, ?_, er⟩
  simp only [expand]; exact tot_bind hbs (tot_sum hr)

theorem tot_expand_rep (hc : cfg.Ok) {e : Expr D} (h : XE cfg e) (n : ℕ) :
    ∃ r, Tot cfg (fun E => expandAsProduct E (List.replicate n e)) r ∧ EP cfg Sb r :=
  tot_expandAsProduct_xe hc fun x hx => by rw [List.eq_of_mem_replicate hx]; exact h

theorem XB.zb {b : Expr D} (h : XB cfg b) : QB cfg b := by
  cases h with
  | sym s hs => exact qb_sym hs
  | sum L h h2 _ _ => exact qb_sum h h2

theorem XB.xe (hc : cfg.Ok) {b : Expr D} (h : XB cfg b) : ∀ k : ℚ, k ≠ 0 → Ex cfg b k → ((0 < k ∧ k.den = 1) ∨ ∃ s, b = .sym s) → XE cfg (fac (b, k)) := by
  induction h with
  | sym s hs =>
    intro k hk hx _
    rw [fac_mexpr]
    refine EP.xe hc (EP.mono kl_sb (m := (1, [(.sym s, k)])) one_ne_zero (Can.single ⟨qb_sym hs, hx, hk⟩) ?_)
    intro f hf; rw [List.mem_singleton.1 hf]; exact ⟨s, rfl⟩
  | sum L hL h2 hb hp ih =>
    have h1 : XE cfg (.sum (L.map em)) := xe_sum hc hL h2 fun m hm => XE.mexpr hc fun f hf =>
      ih m hm f hf f.2 ((hL.sm m hm).facs f hf).ne ((hL.sm m hm).facs f hf).ok (hp m hm f hf)
    intro k _ _ hk
    obtain ⟨hk, hd⟩ : 0 < k ∧ k.den = 1 := by
      rcases hk with hk | ⟨s, hs⟩
      · exact hk
      · cases hs
    obtain ⟨n, rfl⟩ : ∃ n : ℤ, k = n := ⟨k.num, (Rat.coe_int_num_of_den_eq_one hd).symm⟩
    have hk : 0 < n := by exact_mod_cast hk
    by_cases hk1 : n = 1
    · subst hk1; simpa [fac] using h1
    · have hf : fac ((.sum (L.map em) : Expr D), (n : ℚ)) = .pow (.sum (L.map em)) (.int n) := by
        have : (n : ℚ) ≠ 1 := by exact_mod_cast hk1
        simp [fac, hk1, int]
      rw [hf]
      obtain ⟨r, hr, er⟩ := tot_expand_rep hc h1 n.natAbs
      refine ⟨r, tot_expand_powSum hr ?_, er⟩
      have : ¬ (n < 0) := by omega
      simp only [this, if_false]
      exact tot_pure _

theorem LF.xe (hc : cfg.Ok) {f : Expr D × ℚ} (h : LF cfg f) (hf : QF cfg f) : XE cfg (fac f) := h.1.xe hc f.2 hf.ne hf.ok h.2

/-! ## Classes of factors -/

/-- A class of factors: it contains the powers of symbols, and sums as factors are Puiseux polynomials. -/
structure Cl (cfg : Cfg D) (F : Expr D × ℚ → Prop) : Prop where
  app : ∀ {P R : List (Expr D × ℚ)}, Nf cfg P R → (∀ f ∈ P, F f) → ∀ f ∈ R, F f
  sym : ∀ (s : Sym) {k : ℚ}, s.id.Ok → k ≠ 0 → F (.sym s, k)
  xb : ∀ {l : List (Expr D)}, F (.sum l, 1) → XB cfg (.sum l) ∧ ∀ L : List (Mo D), EL cfg Sb L → 2 ≤ L.length → F (.sum (L.map em), 1)

/-- Zero, or a number times factors of the class. -/
def Tm (cfg : Cfg D) (F : Expr D × ℚ → Prop) (e : Expr D) : Prop :=
  e = zero ∨ ∃ m : Mo D, m.1 ≠ 0 ∧ Can cfg m.2 ∧ ¬ Nx m.1 m.2 ∧ (∀ f ∈ m.2, F f) ∧ e = em m

variable {F G : Expr D × ℚ → Prop}

theorem Tm.mono {e : Expr D} (h : Tm cfg F e) (hG : ∀ f, f.2 ≠ 0 → F f → G f) : Tm cfg G e := by
  rcases h with rfl | ⟨m, h1, h2, h3, h4, rfl⟩
  · exact .inl rfl
  · exact .inr ⟨m, h1, h2, h3, fun f hf => hG f (h2.facs f hf).ne (h4 f hf), rfl⟩

theorem Tm.isUndefined {e : Expr D} (h : Tm cfg F e) : e.isUndefined = false := by
  rcases h with rfl | ⟨m, _, h2, _, _, rfl⟩
  · rw [zero_eq]; rfl
  · exact mexpr_isUndefined h2.facs

theorem Tm.num (q : ℚ) : Tm cfg F (.num (.rat q) : Expr D) := by
  by_cases h : q = 0
  · subst h; exact .inl zero_eq.symm
  · refine .inr ⟨(q, []), h, Can.nil, ?_, by simp, num_mexpr q⟩
    rintro ⟨_, l, hl⟩; simp at hl

theorem Cl.tm_sym (hF : Cl cfg F) {s : Sym} (hs : s.id.Ok) : Tm cfg F (.sym s) := by
  refine .inr ⟨(1, [(.sym s, 1)]), one_ne_zero, Can.single ⟨qb_sym hs, .one, one_ne_zero⟩, ?_, ?_, ?_⟩
  · rintro ⟨h, _⟩; exact h rfl
  · intro f hf; rw [List.mem_singleton.1 hf]; exact hF.sym s hs one_ne_zero
  · simp [em, mexpr, rl_one, prodOf, fac]

theorem Cl.tm_ep (hF : Cl cfg F) {l : List (Expr D)} (hl : F (.sum l, 1)) {e : Expr D} (h : EP cfg Sb e) : Tm cfg F e := by
  rcases h.cases with rfl | ⟨m, hm, hC, hs, rfl⟩ | ⟨L, hL, h2, rfl⟩
  · exact .inl rfl
  · refine .inr ⟨m, hm, hC, (kl_sb (cfg := cfg)).not_nx hs _, fun f hf => ?_, rfl⟩
    obtain ⟨b, k⟩ := f
    obtain ⟨s, hs⟩ := hs _ hf
    simp only at hs
    subst hs
    exact hF.sym s (hC.facs _ hf).base.sym_ok (hC.facs _ hf).ne
  · refine .inr ⟨(1, [(.sum (L.map em), 1)]), one_ne_zero, Can.single ⟨qb_sum hL.sl h2, .one, one_ne_zero⟩, ?_, ?_, ?_⟩
    · rintro ⟨h, _⟩; exact h rfl
    · intro f hf; rw [List.mem_singleton.1 hf]; exact (hF.xb hl).2 L hL h2
    · simp [em, mexpr, rl_one, prodOf, fac]

/-- What becomes of a product whose sum is expanded. -/
theorem Cl.tot_nx (hc : cfg.Ok) (hF : Cl cfg F) {q : ℚ} {R : List (Expr D × ℚ)} (hR : ∀ f ∈ R, F f) (hn : Nx q R) :
    ∃ r, Tot cfg (fun E => expandAsProduct E (rl q R)) r ∧ EP cfg Sb r ∧ Tm cfg F r := by
  obtain ⟨hq, l, rfl⟩ := hn
  have hl : F (.sum l, 1) := hR _ (List.mem_singleton_self (Expr.sum l, 1))
  obtain ⟨r, hr, er⟩ := tot_expandAsProduct_xe hc (l := rl q [(.sum l, 1)]) (by
    intro x hx
    rw [rl_ne hq] at hx
    simp only [List.map_cons, List.map_nil, List.mem_cons, List.not_mem_nil, or_false] at hx
    rcases hx with rfl | rfl
    · exact (EP.num kl_sb q).xe hc
    · exact (hF.xb hl).1.xe hc 1 one_ne_zero .one (.inl ⟨one_pos, rfl⟩))
  exact ⟨r, hr, er, hF.tm_ep hl er⟩

theorem tm_lists {es : List (Expr D)} (h : ∀ e ∈ es, Tm cfg F e) (hz : ∀ e ∈ es, e ≠ zero) :
    ∃ Ms : List (Mo D), (∀ m ∈ Ms, m.1 ≠ 0 ∧ Can cfg m.2 ∧ ¬ Nx m.1 m.2 ∧ ∀ f ∈ m.2, F f) ∧ es = Ms.map em := by
  induction es with
  | nil => exact ⟨[], by simp, rfl⟩
  | cons e es ih =>
    obtain ⟨Ms, h1, h2⟩ := ih (fun x hx => h x (by simp [hx])) fun x hx => hz x (by simp [hx])
    rcases h e (by simp) with hh | ⟨m, i1, i2, i3, i4, rfl⟩
    · exact absurd hh (hz e (by simp))
    · refine ⟨m :: Ms, ?_, by rw [h2]; rfl⟩
      intro n hn
      rcases List.mem_cons.1 hn with rfl | hn
      exacts [⟨i1, i2, i3, i4⟩, h1 n hn]

/-- Products. -/
theorem Cl.tot_prod (hc : cfg.Ok) (hF : Cl cfg F) {es : List (Expr D)} (h : ∀ e ∈ es, Tm cfg F e) :
    ∃ r, Tot cfg (fun E => prodCreate E es) r ∧ Tm cfg F r := by
  have hU : es.any Expr.isUndefined = false := by
    rw [List.any_eq_false]; intro e he; simp [(h e he).isUndefined]
  by_cases hz : ∀ e ∈ es, e ≠ Expr.zero
  · obtain ⟨Ms, h1, h3⟩ := tm_lists h hz
    by_cases hl : Ms.length = 1
    · obtain ⟨m, rfl⟩ := List.length_eq_one_iff.1 hl
      refine ⟨em m, ?_, by have := h (em m) (by rw [h3]; simp); exact this⟩
      have hzx : (em m).isZero = false := mexpr_isZero (h1 m (by simp)).1 (h1 m (by simp)).2.1.facs
      have hux : (em m).isUndefined = false := mexpr_isUndefined (h1 m (by simp)).2.1.facs
      subst h3
      unfold prodCreate
      simp only [List.map_cons, List.map_nil, List.any_cons, List.any_nil, hzx, hux, Bool.or_false, Bool.false_eq_true, if_false]
      exact tot_pure _
    · obtain ⟨R, hR, t1, t2⟩ := tot_prodCreate hc (fun m hm => ⟨(h1 m hm).1, (h1 m hm).2.1.facs⟩) hl
      have hq := prod_ne_zero fun m hm => (h1 m hm).1
      have hbR : ∀ f ∈ R, F f := hF.app hR (by
        intro f hf
        obtain ⟨m, hm, hf⟩ := List.mem_flatMap.1 hf
        exact (h1 m hm).2.2.2 f hf)
      generalize hqe : (Ms.map (·.1)).prod = q at hq t1 t2
      by_cases hn : Nx q R
      · obtain ⟨r, hr, _, tr⟩ := hF.tot_nx hc hbR hn
        exact ⟨r, by rw [h3]; exact t2 hn r hr, tr⟩
      · exact ⟨mexpr q R, by rw [h3]; exact t1 hn, .inr ⟨(q, R), hq, hR.can, hn, hbR, rfl⟩⟩
  · simp only [not_forall] at hz
    obtain ⟨e, he, h0⟩ := hz
    have h0 : e = Expr.zero := by simpa using h0
    subst h0
    have hZ : es.any Expr.isZero = true := by
      rw [List.any_eq_true]; exact ⟨_, he, by rw [zero_eq, isZero_ratE]; simp⟩
    refine ⟨Expr.zero, ?_, .inl rfl⟩
    unfold prodCreate
    simp only [hU, hZ, Bool.false_eq_true, if_false, if_true]; exact tot_pure _

/-- Powers. -/
theorem Cl.tot_pow (hc : cfg.Ok) (hp : cfg.maxPrime < 324) (hG : Cl cfg G) {e : Expr D} (h : Tm cfg F e) {k : ℤ}
    (hz : e ≠ zero ∨ 0 < k) (hb : 8 * (k.natAbs : ℤ) < Number.unsignedMax) (hF1 : k = 1 → ∀ f, F f → G f)
    (hFG : k ≠ 0 → ∀ f, f.2 ≠ 0 → F f → G (f.1, f.2 * k)) : ∃ r, Tot cfg (fun E => powCreate E e (int k)) r ∧ Tm cfg G r := by
  by_cases hk : k = 0
  · subst hk
    refine ⟨one, ?_, by rw [one_eq]; exact Tm.num 1⟩
    have hu := h.isUndefined
    have eu : (int 0 : Expr D).isUndefined = false := rfl
    have : (int 0 : Expr D).isZero = true := by rw [isZero_int]; simp
    simp only [powCreate, hu, eu, this, Bool.or_self, Bool.false_eq_true, if_false, Bool.true_or, if_true]
    exact tot_pure _
  by_cases hk1 : k = 1
  · subst hk1
    have ht : Tm cfg G e := h.mono fun f _ hf => hF1 rfl f hf
    refine ⟨e, ?_, ht⟩
    have hu := h.isUndefined
    have eu : (int 1 : Expr D).isUndefined = false := rfl
    have e2 : (int 1 : Expr D).isZero = false := by rw [isZero_int]; simp
    have e3 : (int 1 : Expr D).isOne = true := by rw [isOne_int]; simp
    by_cases ho : e.isOne = true
    · have : e = one := by
        rcases h with rfl | ⟨m, h1, h2, _, _, rfl⟩
        · rw [zero_eq, isOne_ratE] at ho; simp at ho
        · rcases mexpr_cases m.1 m.2 with ⟨_, h⟩ | ⟨f, hf, _, h⟩ | ⟨_, _, h⟩
          · rw [em, h, isOne_ratE] at ho
            have : m.1 = 1 := by simpa using ho
            rw [em, h, this, one_eq]
          · rw [em, h, (h2.facs f (by rw [hf]; simp)).isOne] at ho; simp at ho
          · rw [em, h] at ho; simp [Expr.isOne] at ho
      rw [this]
      rw [this] at hu ho
      simp only [powCreate, hu, eu, ho, Bool.or_self, Bool.false_eq_true, if_false, Bool.or_true, if_true]
      exact tot_pure _
    · have ho : e.isOne = false := by simpa using ho
      rcases h with rfl | ⟨m, h1, h2, _, _, rfl⟩
      · have z : (Expr.zero : Expr D).isZero = true := by rw [zero_eq, isZero_ratE]; simp
        simp only [powCreate, hu, eu, ho, z, e2, Bool.or_self, Bool.false_eq_true, if_false, if_true]
        refine tot_bind (a := false) (tot_whenTrue (tot_isNeg ?_)) (tot_pure _)
        have : Number.lt (.rat ((1 : ℤ) : ℚ) : Number D) 0 = false := by rw [NumPowerSimpl.rat_lt_zero]; simp
        simp only [int, Tsym.isNeg, this]; exact tot_pure _
      · have z : (em m).isZero = false := mexpr_isZero h1 h2.facs
        simp only [powCreate, hu, eu, ho, z, e2, e3, Bool.or_self, Bool.false_eq_true, if_false, if_true]
        exact tot_pure _
  rcases h with rfl | ⟨m, h1, h2, h3, h4, rfl⟩
  · have hk : 0 < k := by simpa using hz
    rw [zero_eq]
    exact ⟨_, tot_powNum hc (.inr hk.le) hb (fun h => absurd rfl h), Tm.num _⟩
  · have hkq : (k : ℚ) ≠ 0 := by exact_mod_cast hk
    have hE : Ek cfg k m.1 m.2 := .inl ⟨Rat.den_intCast k, fun f hf => (h2.facs f hf).ok⟩
    obtain ⟨t1, t2⟩ := tot_pow_term (k := (k : ℚ)) hc h1 (zpow_ne_zero k h1) h2 h3 hkq (by exact_mod_cast hk1) hE
      (tot_powNum hc (.inl h1) hb fun _ => .inl hp) (fun h => by rw [h, one_zpow])
    have hR : ∀ f ∈ sc k m.2, G f := by
      intro f hf
      obtain ⟨g, hg, rfl⟩ := List.mem_map.1 hf
      exact hFG hk g (h2.facs g hg).ne (h4 g hg)
    by_cases hn : Nx (m.1 ^ k) (sc k m.2)
    · obtain ⟨r, hr, _, tr⟩ := hG.tot_nx hc hR hn
      exact ⟨r, t2 hn r hr, tr⟩
    · exact ⟨_, t1 hn, .inr ⟨(m.1 ^ k, sc k m.2), zpow_ne_zero _ h1, h2.sc hkq fun f hf => hE.fac hf, hn, hR, rfl⟩⟩

/-! ## Puiseux polynomials -/

theorem cnt_pos {P : List (Expr D × ℚ)} {b : Expr D} (h : ∀ g ∈ P, g.1 = b → 0 < g.2 ∧ g.2.den = 1) : 0 ≤ cnt P b ∧ (cnt P b).den = 1 := by
  induction P with
  | nil => simp
  | cons f P ih =>
    rw [cnt_cons, Finsupp.add_apply, Finsupp.single_apply]
    have ih := ih fun g hg => h g (by simp [hg])
    split
    · obtain ⟨h1, h2⟩ := h f (by simp) ‹_›
      refine ⟨by linarith [ih.1], ?_⟩
      rw [← Rat.coe_int_num_of_den_eq_one h2, ← Rat.coe_int_num_of_den_eq_one ih.2, ← Int.cast_add]
      exact Rat.den_intCast _
    · rw [zero_add]; exact ih

theorem Nf.exp {P R : List (Expr D × ℚ)} (h : Nf cfg P R) {f : Expr D × ℚ} (hf : f ∈ R) : f.2 = Qf.cnt P f.1 ∧ f.2 ≠ 0 := by
  have := (h.can.mem_iff f).1 hf
  rw [h.cnt] at this
  exact ⟨this.1.symm, this.2⟩

/-- The factors of monomials. -/
def MF (f : Expr D × ℚ) : Prop := ∃ s, f.1 = .sym s

theorem cl_mf : Cl cfg (MF : Expr D × ℚ → Prop) := by
  refine ⟨?_, fun s _ _ _ => ⟨s, rfl⟩, ?_⟩
  · intro P R h hP f hf
    obtain ⟨g, hg, e⟩ := h.sub f hf
    unfold MF; rw [← e]; exact hP g hg
  · rintro l ⟨s, hs⟩; cases hs

theorem cl_lf : Cl cfg (LF cfg) := by
  refine ⟨?_, fun s _ hs _ => ⟨.sym s hs, .inr ⟨s, rfl⟩⟩, ?_⟩
  · intro P R h hP f hf
    obtain ⟨g, hg, e⟩ := h.sub f hf
    refine ⟨by rw [← e]; exact (hP g hg).1, ?_⟩
    by_cases hs : ∃ s, f.1 = .sym s
    · exact .inr hs
    · left
      obtain ⟨h1, h2⟩ := h.exp hf
      have := cnt_pos (P := P) (b := f.1) fun g hg e => by
        rcases (hP g hg).2 with h | h
        · exact h
        · rw [e] at h; exact absurd h hs
      rw [← h1] at this
      exact ⟨lt_of_le_of_ne this.1 (Ne.symm h2), this.2⟩
  · intro l h
    exact ⟨h.1, fun L hL h2 => ⟨XB.of_el hL h2, .inl ⟨one_pos, rfl⟩⟩⟩

/-- A Puiseux polynomial as a sum. -/
theorem Tm.sum_lf {e : Expr D} (h : Tm cfg (LF cfg) e) : ∃ L, SL cfg L ∧ (∀ m ∈ L, ∀ f ∈ m.2, LF cfg f) ∧ e = sumOf (L.map em) := by
  rcases h with rfl | ⟨m, h1, h2, h3, h4, rfl⟩
  · exact ⟨[], SL.nil, by simp, rfl⟩
  · by_cases hs : ∃ l, m.2 = [(.sum l, 1)]
    · obtain ⟨q, P⟩ := m
      obtain ⟨l, hl⟩ := hs
      simp only at hl h1 h2 h3 h4
      subst hl
      have hq : q = 1 := by by_contra h; exact h3 ⟨h, l, rfl⟩
      subst hq
      have hx := (h4 _ (List.mem_singleton_self (Expr.sum l, 1))).1
      have he : (em ((1 : ℚ), [((.sum l : Expr D), (1 : ℚ))]) : Expr D) = .sum l := by simp [em, mexpr, rl_one, prodOf, fac]
      rw [he]
      rcases hx.cases with ⟨s, hs⟩ | ⟨L, hL, hL2, hLf, hl⟩
      · cases hs
      · refine ⟨L, hL, hLf, ?_⟩
        simp only at hl
        rw [hl]
        match L, hL2 with
        | _ :: _ :: _, _ => rfl
    · exact ⟨[m], SL.single ⟨h1, h2, hs⟩, by simpa using h4, rfl⟩

theorem tm_sumOf {L : List (Mo D)} (hL : SL cfg L) (h : ∀ m ∈ L, ∀ f ∈ m.2, LF cfg f) : Tm cfg (LF cfg) (sumOf (L.map em)) := by
  match L, hL with
  | [], _ => exact .inl rfl
  | [m], hL => exact .inr ⟨m, hL.cons.1.ne, hL.cons.1.can, hL.cons.1.not_nx _, h m (by simp), rfl⟩
  | m :: n :: L, hL =>
    refine .inr ⟨(1, [(.sum ((m :: n :: L).map em), 1)]), one_ne_zero, Can.single ⟨qb_sum hL (by simp), .one, one_ne_zero⟩, ?_, ?_, ?_⟩
    · rintro ⟨h, _⟩; exact h rfl
    · intro f hf; rw [List.mem_singleton.1 hf]
      exact ⟨.sum _ hL (by simp) (fun m hm f hf => (h m hm f hf).1) fun m hm f hf => (h m hm f hf).2, .inl ⟨one_pos, rfl⟩⟩
    · simp [em, mexpr, rl_one, prodOf, fac, sumOf]

theorem Added.mem {Ls : List (List (Mo D))} {R : List (Mo D)} (h : Added cfg Ls R) {m : Mo D} (hm : m ∈ R) :
    ∃ L ∈ Ls, ∃ n ∈ L, n.2 = m.2 := by
  by_contra hn
  have h1 := (h.sl.mem_iff m).1 hm
  rw [h.co] at h1
  have : ∀ Ls : List (List (Mo D)), (∀ L ∈ Ls, ∀ n ∈ L, n.2 ≠ m.2) → (Ls.map Qf.co).sum m.2 = 0 := by
    intro Ls hLs
    induction Ls with
    | nil => simp
    | cons L Ls ih =>
      rw [List.map_cons, List.sum_cons, Finsupp.add_apply, ih fun x hx => hLs x (by simp [hx]), add_zero]
      exact co_none (hLs L (by simp))
  rw [this Ls fun L hL n hnL e => hn ⟨L, hL, n, hnL, e⟩] at h1
  exact h1.2 h1.1.symm

/-- Sums of Puiseux polynomials. -/
theorem tot_sum_lf (hc : cfg.Ok) {es : List (Expr D)} (hne : es ≠ []) (h : ∀ e ∈ es, Tm cfg (LF cfg) e) :
    ∃ r, Tot cfg (fun E => sumCreate E es) r ∧ Tm cfg (LF cfg) r := by
  have : ∃ Ls : List (List (Mo D)), (∀ L ∈ Ls, SL cfg L ∧ ∀ m ∈ L, ∀ f ∈ m.2, LF cfg f) ∧ es = Ls.map (fun L => sumOf (L.map em)) := by
    clear hne
    induction es with
    | nil => exact ⟨[], by simp, rfl⟩
    | cons e es ih =>
      obtain ⟨Ls, h1, h2⟩ := ih fun x hx => h x (by simp [hx])
      obtain ⟨L, hL, hf, rfl⟩ := (h e (by simp)).sum_lf
      refine ⟨L :: Ls, ?_, by simp [h2]⟩
      intro M hM
      rcases List.mem_cons.1 hM with rfl | hM
      exacts [⟨hL, hf⟩, h1 M hM]
  obtain ⟨Ls, h1, rfl⟩ := this
  obtain ⟨R, hT, hR⟩ := tot_sumCreate hc (Ls := Ls) (by rintro rfl; simp at hne) fun L hL => (h1 L hL).1
  refine ⟨_, hT, tm_sumOf hR.sl fun m hm f hf => ?_⟩
  obtain ⟨L, hL, n, hn, e⟩ := hR.mem hm
  rw [← e] at hf
  exact (h1 L hL).2 n hn f hf

end Qf
end Tsym
