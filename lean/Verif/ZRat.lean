import Verif.ZLaurent
import Verif.SoundNormal

set_option autoImplicit false
set_option linter.unusedSectionVars false
set_option linter.unusedSimpArgs false
set_option linter.unusedVariables false

/-!
# Expanding products of Laurent polynomials and their reciprocals
-/

namespace Tsym

namespace Zf

open Expr
open scoped Classical

variable {D : Type} [Flt D] [LawfulFlt D] {cfg : Cfg D} {σ : Asg}

/-! ## Values -/

theorem tv {f : Eng D → M D (Expr D)} {r : Expr D} {v : ℝ} (h : Tot cfg f r) (hv : ∀ n, Vl σ (f (eng cfg n)) v) :
    den σ r = some v := by
  obtain ⟨N, hN⟩ := h
  exact hv N r [] (hN N le_rfl) (by simp)

theorem tv_prod (hc : cfg.Ok) (hσ : σ.Respects) {l : List (Expr D)} {r : Expr D} {v : ℝ}
    (h : Tot cfg (fun E => prodCreate E l) r) (hv : denProd σ l = some v) : den σ r = some v :=
  tv (tot_prod h) fun n => (sound_eng hc n).prod hσ hv

theorem tv_expand (hc : cfg.Ok) (hσ : σ.Respects) {e : Expr D} {r : Expr D} {v : ℝ}
    (h : Tot cfg (fun E => expand E e) r) (hv : den σ e = some v) : den σ r = some v :=
  tv (tot_expand h) fun n => (sound_eng hc n).expand hσ hv

theorem tv_eap (hc : cfg.Ok) (hσ : σ.Respects) {l : List (Expr D)} {r : Expr D} {v : ℝ}
    (h : Tot cfg (fun E => expandAsProduct E l) r) (hv : denProd σ l = some v) : den σ r = some v :=
  tv (tot_expandAsProduct h) fun n => (sound_eng hc n).expandAsProduct hσ hv

theorem denProd_mem {l : List (Expr D)} {v : ℝ} (h : denProd σ l = some v) : ∀ a ∈ l, Val σ a := by
  induction l generalizing v with
  | nil => simp
  | cons b l ih =>
    obtain ⟨x, y, hx, hy, -⟩ := denProd_cons.1 h
    intro a ha
    rcases List.mem_cons.1 ha with rfl | ha
    exacts [⟨x, hx⟩, ih hy a ha]

theorem denProd_val {l : List (Expr D)} (h : ∀ a ∈ l, Val σ a) : ∃ v, denProd σ l = some v := by
  induction l with
  | nil => exact ⟨1, rfl⟩
  | cons a l ih =>
    obtain ⟨y, hy⟩ := ih fun b hb => h b (by simp [hb])
    obtain ⟨x, hx⟩ := h a (by simp)
    exact ⟨_, denProd_cons.2 ⟨x, y, hx, hy, rfl⟩⟩

theorem val_fac {f : Expr D × ℤ} (h : Val σ (fac f)) : ∃ x, den σ f.1 = some x ∧ (f.2 < 0 → x ≠ 0) := by
  obtain ⟨v, hv⟩ := h
  unfold fac at hv
  split at hv
  · rename_i h1; exact ⟨v, hv, by omega⟩
  · obtain ⟨x, y, hx, hy, h⟩ := den_pow.1 hv
    refine ⟨x, hx, ?_⟩
    rintro hk rfl
    rw [den_int] at hy
    cases hy
    unfold Spec.pow at h
    split at h
    · rename_i h0
      simp only [lt_irrefl, false_or, true_and, false_and, or_false] at h0
      have : (f.2 : ℝ) < 0 := by exact_mod_cast hk
      linarith
    · cases h

theorem val_mexpr {q : ℚ} {P : List (Expr D × ℤ)} (h : Val σ (mexpr q P)) : ∀ e ∈ rl q P, Val σ e := by
  obtain ⟨v, hv⟩ := h
  rcases mexpr_cases q P with ⟨rfl, e⟩ | ⟨f, rfl, rfl, e⟩ | ⟨_, _, e⟩
  · intro a ha
    unfold rl at ha
    split at ha
    · simp at ha
    · simp at ha; rw [ha]; exact ⟨_, rfl⟩
  · intro a ha
    rw [rl_one] at ha
    simp at ha
    rw [ha]; exact ⟨v, by rw [← e]; exact hv⟩
  · rw [e, den_prod] at hv
    exact denProd_mem hv

theorem val_fac_mexpr {q : ℚ} {P : List (Expr D × ℤ)} (h : Val σ (mexpr q P)) : ∀ f ∈ P, Val σ (fac f) := fun f hf =>
  val_mexpr h _ (by unfold rl; exact List.mem_append_right _ (List.mem_map.2 ⟨f, hf, rfl⟩))

theorem mem_rl {q : ℚ} {P : List (Expr D × ℤ)} {e : Expr D} (h : e ∈ rl q P) : e = .num (.rat q) ∨ ∃ f ∈ P, e = fac f := by
  unfold rl at h
  rcases List.mem_append.1 h with h | h
  · split at h
    · simp at h
    · exact .inl (List.mem_singleton.1 h)
  · obtain ⟨f, hf, rfl⟩ := List.mem_map.1 h; exact .inr ⟨f, hf, rfl⟩

/-! ## Expanded rational functions -/

/-- A power of a symbol, or of an expanded Laurent polynomial with a negative exponent. -/
def NF (cfg : Cfg D) (f : Expr D × ℤ) : Prop :=
  (∃ s, f.1 = .sym s) ∨ (f.2 < 0 ∧ ∃ L, EL cfg Sb L ∧ 2 ≤ L.length ∧ f.1 = .sum (L.map em))

/-- A product of such. -/
def Nb (cfg : Cfg D) (P : List (Expr D × ℤ)) : Prop := ∀ f ∈ P, NF cfg f

theorem kl_nb : Kl cfg (Nb cfg) := by
  refine ⟨by simp [Nb], ?_, ?_⟩
  · intro Ps R h hR f hf
    obtain ⟨g, hg, e⟩ := hR.sub f hf
    have hall : ∀ g ∈ Ps.flatten, NF cfg g := by
      intro g hg
      obtain ⟨P, hP, hg⟩ := List.mem_flatten.1 hg
      exact (h P hP).2 g hg
    rcases hall g hg with ⟨s, hs⟩ | ⟨_, L, hL, h2, hs⟩
    · exact .inl ⟨s, by rw [← e]; exact hs⟩
    · refine .inr ⟨?_, L, hL, h2, by rw [← e]; exact hs⟩
      obtain ⟨h1, h2⟩ := hR.exp hf
      have := cnt_neg (P := Ps.flatten) (b := f.1) fun g' hg' e' => by
        rcases hall g' hg' with ⟨s, hs'⟩ | h
        · rw [e', ← e, hs] at hs'; cases hs'
        · exact h.1
      omega
  · intro P l h e
    subst e
    rcases h _ (List.mem_singleton_self _) with ⟨s, hs⟩ | ⟨h, _⟩
    · cases hs
    · simp at h

variable {K K' : List (Expr D × ℤ) → Prop}

theorem EP.imp {e : Expr D} (h : EP cfg K e) (hK : ∀ P, K P → K' P) : EP cfg K' e := by
  obtain ⟨L, hL, rfl⟩ := h
  exact ⟨L, ⟨hL.sl, fun m hm => hK _ (hL.sb m hm)⟩, rfl⟩

theorem sb_nb {P : List (Expr D × ℤ)} (h : Sb P) : Nb cfg P := fun f hf => .inl (h f hf)

theorem EP.nb {e : Expr D} (h : EP cfg Sb e) : EP cfg (Nb cfg) e := h.imp fun _ => sb_nb

theorem oneOver_eq (E : Eng D) (e : Expr D) : E.oneOver e = E.powCreate e (int (-1)) := by
  have h2 : (int (-1) : Expr D) = mOne := by rw [mOne_rat]; simp [int]
  rw [h2]; rfl

/-- The reciprocal of an expanded Laurent polynomial. -/
theorem tot_inv (hc : cfg.Ok) (hp : cfg.maxPrime < 324) {e : Expr D} (h : EP cfg Sb e) (h0 : e ≠ zero) :
    ∃ r, Tot cfg (fun E => E.oneOver e) r ∧ EM cfg (Nb cfg) r := by
  simp only [oneOver_eq]
  rcases h.cases with rfl | ⟨m, hm, hC, hs, rfl⟩ | ⟨L, hL, h2, rfl⟩
  · exact absurd rfl h0
  · have hb : 8 * (((-1 : ℤ)).natAbs : ℤ) < Number.unsignedMax := by decide
    have hsc : Sb (sc (-1) m.2) := by
      intro f hf
      obtain ⟨g, hg, rfl⟩ := List.mem_map.1 hf
      exact hs g hg
    have t := (tot_pow_term hc hp hm hC ((kl_sb (cfg := cfg)).not_nx hs _) (k := -1) (by decide) hb).1 ((kl_sb (cfg := cfg)).not_nx hsc _)
    exact ⟨_, tot_pow t, EM.mono kl_nb (m := (m.1 ^ (-1 : ℤ), sc (-1) m.2)) (zpow_ne_zero _ hm) (hC.sc (by decide)) (sb_nb hsc)⟩
  · have zf : ZF cfg ((.sum (L.map em) : Expr D), 1) := ⟨zb_sum hL.sl h2, one_ne_zero⟩
    have t := tot_pow_fac hc zf (k := -1) (by decide) (by decide)
    have e1 : fac ((.sum (L.map em) : Expr D), (1 : ℤ)) = .sum (L.map em) := by simp [fac]
    rw [e1] at t
    refine ⟨_, tot_pow t, ?_⟩
    rw [fac_mexpr]
    refine EM.mono kl_nb (m := (1, [((.sum (L.map em) : Expr D), 1 * -1)])) one_ne_zero (Can.single ⟨zf.base, by simp⟩) ?_
    intro f hf
    rw [List.mem_singleton.1 hf]
    exact .inr ⟨by simp, L, hL, h2, rfl⟩

/-- A negative power of a Laurent polynomial. -/
theorem tot_expand_neg (hc : cfg.Ok) (hp : cfg.maxPrime < 324) (hσ : σ.Respects) {l : List (Expr D)} (h : XE cfg (.sum l)) {k : ℤ} (hk : k < 0)
    {x : ℝ} (hx : den σ (.sum l) = some x) (h0 : x ≠ 0) :
    ∃ r, Tot cfg (fun E => expand E (.pow (.sum l) (int k))) r ∧ EM cfg (Nb cfg) r := by
  obtain ⟨r, hr, er⟩ := tot_expand_rep hc h k.natAbs
  have hv := tv_eap hc hσ hr (denProd_replicate hx _)
  have hr0 : r ≠ zero := by
    rintro rfl
    rw [den_zero] at hv
    simp only [Option.some.injEq] at hv
    exact pow_ne_zero k.natAbs h0 hv.symm
  obtain ⟨s, hs, es⟩ := tot_inv hc hp er hr0
  refine ⟨s, tot_expand_powSum hr ?_, es⟩
  simp only [hk, if_true]
  exact hs

/-- What expanding a factor of a product may give. -/
def FQ (cfg : Cfg D) (r : Expr D) : Prop := EM cfg (Nb cfg) r ∨ (EP cfg Sb r ∧ r.isSum = true)

theorem EP.fq {e : Expr D} (h : EP cfg Sb e) : FQ cfg e := by
  cases hs : e.isSum
  · exact .inl ⟨h.nb, hs⟩
  · exact .inr ⟨h, hs⟩

theorem FQ.ep {e : Expr D} (h : FQ cfg e) : EP cfg (Nb cfg) e := by
  rcases h with h | h
  exacts [h.1, h.1.nb]

/-- A factor with a negative exponent or a symbol as base. -/
theorem tot_expand_uf (hc : cfg.Ok) (hp : cfg.maxPrime < 324) (hσ : σ.Respects) {f : Expr D × ℤ} (h : UF cfg f) (hz : ZF cfg f)
    (hv : Val σ (fac f)) : ∃ r, Tot cfg (fun E => expand E (fac f)) r ∧ EM cfg (Nb cfg) r := by
  obtain ⟨b, k⟩ := f
  rcases h.1.cases with ⟨s, hs⟩ | ⟨L, hL, h2, hLf, hs⟩
  · have hsb : Sb [(b, k)] := fun g hg => by rw [List.mem_singleton.1 hg]; exact ⟨s, hs⟩
    refine ⟨_, tot_expand_symfac hz hsb, ?_⟩
    rw [fac_mexpr]
    exact EM.mono kl_nb (m := (1, [(b, k)])) one_ne_zero (Can.single hz) (sb_nb hsb)
  · simp only at hs
    subst hs
    have hk : k < 0 := by
      rcases h.2 with h | ⟨s, hs⟩
      · exact h
      · cases hs
    obtain ⟨x, hx, h0⟩ := val_fac hv
    have hx1 : XE cfg (.sum (L.map em) : Expr D) := h.1.xe hc 1 one_ne_zero (.inl one_pos)
    have : fac ((.sum (L.map em) : Expr D), k) = .pow (.sum (L.map em)) (int k) := by
      have : k ≠ 1 := by omega
      simp [fac, this]
    rw [this]
    exact tot_expand_neg hc hp hσ hx1 hk hx (h0 hk)

theorem tot_expand_qf (hc : cfg.Ok) (hp : cfg.maxPrime < 324) (hσ : σ.Respects) {f : Expr D × ℤ} (h : QF cfg f) (hz : ZF cfg f)
    (hv : Val σ (fac f)) : ∃ r, Tot cfg (fun E => expand E (fac f)) r ∧ FQ cfg r := by
  rcases lt_or_ge f.2 0 with hk | hk
  · obtain ⟨r, h1, h2⟩ := tot_expand_uf hc hp hσ ⟨h, .inl hk⟩ hz hv
    exact ⟨r, h1, .inl h2⟩
  · have hk : 0 < f.2 := lt_of_le_of_ne hk hz.ne.symm
    obtain ⟨r, h1, h2⟩ := h.xe hc f.2 hz.ne (.inl hk)
    exact ⟨r, h1, h2.fq⟩

theorem NF.uf {f : Expr D × ℤ} (h : NF cfg f) (hz : ZF cfg f) : UF cfg f := by
  obtain ⟨b, k⟩ := f
  rcases h with ⟨s, hs⟩ | ⟨hk, L, hL, h2, hs⟩
  · simp only at hs; subst hs
    exact ⟨.sym s hz.base.sym_ok, .inr ⟨s, rfl⟩⟩
  · simp only at hs; subst hs
    exact ⟨XB.of_el hL h2, .inl hk⟩

/-- The factors without sums. -/
theorem tot_eap_em (hc : cfg.Ok) {l : List (Expr D)} (h : ∀ e ∈ l, ∃ r, Tot cfg (fun E => expand E e) r ∧ EM cfg (Nb cfg) r) :
    ∃ r, Tot cfg (fun E => expandAsProduct E l) r ∧ EM cfg (Nb cfg) r := by
  obtain ⟨rs, f2, hT⟩ := tot_defScalarAndSums (cfg := cfg) (Q := fun _ r => EM cfg (Nb cfg) r) h
  have hrs : ∀ r ∈ rs, EM cfg (Nb cfg) r := fun r hr => by obtain ⟨e, _, h⟩ := forall2_mem f2 r hr; exact h.2
  have f1 : rs.filter (fun r => !r.isSum) = rs := by
    rw [List.filter_eq_self]; intro e he; simp [(hrs e he).2]
  have f0 : rs.filter (fun r => r.isSum) = [] := by
    rw [List.filter_eq_nil_iff]; intro e he; simp [(hrs e he).2]
  rw [f1, f0] at hT
  obtain ⟨r, hr, h2, _⟩ := tot_scalar hc kl_nb hrs
  exact ⟨r, tot_expandAsProduct_nil hT hr, h2⟩

theorem tot_expand_num (q : ℚ) : Tot cfg (fun E => expand E (.num (.rat q))) (.num (.rat q) : Expr D) := by
  simp only [expand]; exact tot_pure _

/-- Expanded products of powers of symbols and negative powers of sums, once more. -/
theorem tot_expand_nb (hc : cfg.Ok) (hp : cfg.maxPrime < 324) (hσ : σ.Respects) {e : Expr D} (h : EM cfg (Nb cfg) e) (hv : Val σ e) :
    ∃ r, Tot cfg (fun E => expand E e) r ∧ EM cfg (Nb cfg) r := by
  rcases h.cases with rfl | ⟨m, hm, hC, hK, rfl⟩
  · rw [zero_eq]; exact ⟨_, tot_expand_num 0, EM.num kl_nb 0⟩
  · have hf : ∀ f ∈ m.2, ∃ r, Tot cfg (fun E => expand E (fac f)) r ∧ EM cfg (Nb cfg) r := fun f hf =>
      tot_expand_uf hc hp hσ ((hK f hf).uf (hC.facs f hf)) (hC.facs f hf) (val_fac_mexpr hv f hf)
    rcases mexpr_cases m.1 m.2 with ⟨_, e⟩ | ⟨f, e1, _, e⟩ | ⟨_, _, e⟩
    · rw [em, e]; exact ⟨_, tot_expand_num _, EM.num kl_nb _⟩
    · rw [em, e]; exact hf f (by rw [e1]; simp)
    · rw [em, e]
      obtain ⟨r, hr, er⟩ := tot_eap_em hc (l := rl m.1 m.2) (by
        intro x hx
        rcases mem_rl hx with rfl | ⟨f, hf', rfl⟩
        · exact ⟨_, tot_expand_num _, EM.num kl_nb _⟩
        · exact hf f hf')
      refine ⟨r, ?_, er⟩
      simp only [expand]; exact tot_expandAsProduct hr

theorem tot_expandScalarSum_nb (hc : cfg.Ok) (hp : cfg.maxPrime < 324) (hσ : σ.Respects) {scalar : Expr D} (hs : EM cfg (Nb cfg) scalar)
    (hsv : Val σ scalar) {L : List (Mo D)} (hL : EL cfg (Nb cfg) L) (hne : L ≠ []) (hv : ∀ m ∈ L, Val σ (em m)) :
    ∃ r, Tot cfg (fun E => expandScalarSum E scalar (L.map em)) r ∧ EP cfg (Nb cfg) r := by
  obtain ⟨bs, hb, f2⟩ := tot_mapL_ex (cfg := cfg) (f := fun E item => (do
      let p ← E.prodCreate [scalar, item]
      E.expand p : M D (Expr D))) (l := L.map em) (Q := fun a b => EP cfg (Nb cfg) b) (by
    intro a ha
    obtain ⟨m, hm, rfl⟩ := List.mem_map.1 ha
    obtain ⟨p, hr, h1, _⟩ := tot_prod_em hc kl_nb (A := [scalar, em m]) (by simp) (by
      intro e he
      simp only [List.mem_cons, List.not_mem_nil, or_false] at he
      rcases he with rfl | rfl
      exacts [hs, EM.mono kl_nb (hL.sl.sm m hm).ne (hL.sl.sm m hm).can (hL.sb m hm)])
    obtain ⟨x, hx⟩ := hsv
    obtain ⟨y, hy⟩ := hv m hm
    obtain ⟨r, h2, h3⟩ := tot_expand_nb hc hp hσ h1 ⟨_, tv_prod hc hσ hr (denProd_two hx hy)⟩
    exact ⟨r, tot_bind (tot_prod hr) (tot_expand h2), h3.1⟩)
  have hl : bs.length = (L.map (em : Mo D → Expr D)).length := f2.length_eq.symm
  obtain ⟨r, hr, er, pr⟩ := tot_sum_ep hc (es := bs) (K := Nb cfg) (by
    intro e; rw [e] at hl; simp at hl; exact hne (List.length_eq_zero_iff.1 hl.symm)) (fun e he => by
    obtain ⟨a, _, h⟩ := forall2_mem f2 e he; exact h)
  exact ⟨r, tot_bind hb (tot_sum hr), er⟩

/-- Products: the sums are Laurent polynomials, or there is at most one. -/
theorem tot_eap (hc : cfg.Ok) (hp : cfg.maxPrime < 324) (hσ : σ.Respects) {l rs : List (Expr D)}
    (hT : Tot cfg (fun E => defScalarAndSums E l) (rs.filter (fun r => !r.isSum), rs.filter (fun r => r.isSum)))
    (hrs : ∀ r ∈ rs, EP cfg (Nb cfg) r ∧ Val σ r)
    (hS : (∀ r ∈ rs, r.isSum = true → EP cfg Sb r) ∨ (rs.filter fun r => r.isSum).length ≤ 1) :
    ∃ r, Tot cfg (fun E => expandAsProduct E l) r ∧ EP cfg (Nb cfg) r := by
  obtain ⟨sc, hsc, e1, p1⟩ := tot_scalar hc kl_nb (K := Nb cfg) (A := rs.filter fun r => !r.isSum) (fun e he => by
    rw [List.mem_filter] at he
    exact ⟨(hrs e he.1).1, by simpa using he.2⟩)
  match hS' : rs.filter fun r => r.isSum with
  | [] =>
    rw [hS'] at hT
    exact ⟨sc, tot_expandAsProduct_nil hT hsc, e1.1⟩
  | s :: S =>
    rw [hS'] at hT
    have hs : ∀ x ∈ s :: S, x ∈ rs ∧ x.isSum = true := by
      intro x hx
      rwa [← hS', List.mem_filter] at hx
    have : ∃ t, Tot cfg (fun E => expandSums E s S) t ∧ EP cfg (Nb cfg) t ∧ t.isSum = true := by
      rcases hS with hS | hS
      · obtain ⟨t, ht, et, st⟩ := tot_expandSums hc (S := S) (fun x hx => ⟨hS x (hs x (by simp [hx])).1 (hs x (by simp [hx])).2, (hs x (by simp [hx])).2⟩)
          (hS s (hs s (by simp)).1 (hs s (by simp)).2) (hs s (by simp)).2
        exact ⟨t, ht, et.nb, st⟩
      · rw [hS'] at hS
        have : S = [] := by
          rw [List.length_cons] at hS
          exact List.length_eq_zero_iff.1 (by omega)
        subst this
        exact ⟨s, by simp only [expandSums]; exact tot_pure _, (hrs s (hs s (by simp)).1).1, (hs s (by simp)).2⟩
    obtain ⟨t, ht, et, st⟩ := this
    have hsv : Val σ sc := by
      obtain ⟨v, hv⟩ := denProd_val (σ := σ) (l := rs.filter fun r => !r.isSum) fun a ha => (hrs a (List.mem_filter.1 ha).1).2
      refine ⟨v, tv hsc fun n => ?_⟩
      generalize rs.filter (fun r => !r.isSum) = A at hv
      cases A with
      | nil => simp only [List.isEmpty_nil, if_true]; simp only [denProd, Option.some.injEq] at hv; exact wp_pure (by rw [den_one, hv])
      | cons a A => simp only [List.isEmpty_cons, Bool.false_eq_true, if_false]; exact (sound_eng hc n).prod hσ hv
    have htv : Val σ t := by
      obtain ⟨x, hx⟩ := (hrs s (hs s (by simp)).1).2
      obtain ⟨v, hv⟩ := denProd_val (σ := σ) (l := S) fun a ha => (hrs a (hs a (by simp [ha])).1).2
      exact ⟨_, tv ht fun n => expandSums_vl (sound_eng hc n) hσ hx hv⟩
    rcases et.cases with rfl | ⟨m, hm, hC, hK, rfl⟩ | ⟨L, hL, h2, rfl⟩
    · simp [zero_eq, Expr.isSum] at st
    · rw [(EM.mono kl_nb hm hC hK).2] at st; simp at st
    · obtain ⟨v, hv⟩ := htv
      rw [den_sum] at hv
      obtain ⟨r, hr, er⟩ := tot_expandScalarSum_nb hc hp hσ e1 hsv hL (by rintro rfl; simp at h2) fun m hm =>
        denSum_mem hv _ (List.mem_map.2 ⟨m, hm, rfl⟩)
      exact ⟨r, tot_expandAsProduct_cons hT hsc ht hr, er⟩

/-- Products of Laurent polynomials and reciprocals. -/
theorem tot_eap_fq (hc : cfg.Ok) (hp : cfg.maxPrime < 324) (hσ : σ.Respects) {l : List (Expr D)}
    (h : ∀ e ∈ l, ∃ r, Tot cfg (fun E => expand E e) r ∧ FQ cfg r) (hv : ∀ e ∈ l, Val σ e) :
    ∃ r, Tot cfg (fun E => expandAsProduct E l) r ∧ EP cfg (Nb cfg) r := by
  obtain ⟨rs, f2, hT⟩ := tot_defScalarAndSums (cfg := cfg) (Q := fun _ r => FQ cfg r) h
  refine tot_eap hc hp hσ hT (fun r hr => ?_) (.inl fun r hr hs => ?_)
  · obtain ⟨e, he, h⟩ := forall2_mem f2 r hr
    obtain ⟨v, hv⟩ := hv e he
    exact ⟨h.2.ep, v, tv_expand hc hσ h.1 hv⟩
  · obtain ⟨e, he, h⟩ := forall2_mem f2 r hr
    rcases h.2 with h | h
    · rw [h.2] at hs; cases hs
    · exact h.1

theorem tot_expand_term (hc : cfg.Ok) (hp : cfg.maxPrime < 324) (hσ : σ.Respects) {q : ℚ} {P : List (Expr D × ℤ)} (hP : ZFs cfg P)
    (h : ∀ f ∈ P, QF cfg f) (hv : Val σ (mexpr q P)) : ∃ r, Tot cfg (fun E => expand E (mexpr q P)) r ∧ EP cfg (Nb cfg) r := by
  have hf : ∀ f ∈ P, ∃ r, Tot cfg (fun E => expand E (fac f)) r ∧ FQ cfg r := fun f hf =>
    tot_expand_qf hc hp hσ (h f hf) (hP f hf) (val_fac_mexpr hv f hf)
  have hr := val_mexpr hv
  rcases mexpr_cases q P with ⟨rfl, e⟩ | ⟨f, rfl, _, e⟩ | ⟨_, _, e⟩
  · rw [e]; exact ⟨_, tot_expand_num _, EP.num kl_nb _⟩
  · rw [e]
    obtain ⟨r, h1, h2⟩ := hf f (by simp)
    exact ⟨r, h1, h2.ep⟩
  · rw [e]
    obtain ⟨r, h1, h2⟩ := tot_eap_fq hc hp hσ (l := rl q P) (by
      intro x hx
      rcases mem_rl hx with rfl | ⟨f, hf', rfl⟩
      · exact ⟨_, tot_expand_num _, (EP.num kl_sb _).fq⟩
      · exact hf f hf') hr
    refine ⟨r, ?_, h2⟩
    simp only [expand]; exact tot_expandAsProduct h1

end Zf
end Tsym
