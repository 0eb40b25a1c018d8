import Verif.NormalPoly
import Verif.ZRat
import Verif.Props.Polynomials

set_option autoImplicit false
set_option linter.unusedSectionVars false
set_option linter.unusedSimpArgs false
set_option linter.unusedVariables false

/-!
# Helper lemmas: normal forms of quotients of expanded polynomials
-/

namespace Tsym

open Expr
open scoped Classical

variable {D : Type} [Flt D] [LawfulFlt D] {cfg : Cfg D}

/-! ## Expanded polynomials are expanded Laurent polynomials -/

theorem zem_symFac {x : Sym × ℕ} (h : x.1.id.Ok ∧ 1 ≤ x.2) : Zf.EM cfg Zf.Sb (symFac x : Expr D) := by
  have hz : Zf.ZF cfg ((.sym x.1 : Expr D), (x.2 : ℤ)) := ⟨Zf.zb_sym h.1, by have := h.2; simp only [ne_eq, Nat.cast_eq_zero]; omega⟩
  have e : (symFac x : Expr D) = Zf.fac (.sym x.1, (x.2 : ℤ)) := by
    unfold symFac fac Zf.fac
    simp only [Nat.cast_eq_one]
  rw [e, Zf.fac_mexpr]
  exact Zf.EM.mono Zf.kl_sb (m := (1, [(.sym x.1, (x.2 : ℤ))])) one_ne_zero (Zf.Can.single hz) fun g hg => by
    rw [List.mem_singleton.1 hg]; exact ⟨_, rfl⟩

theorem poly_prodOf (l : List (Expr D)) : poly (prodOf l) = (l.map poly).prod := by
  match l with
  | [] => rw [prodOf, one_eq, poly_ratE]; simp
  | [a] => simp [prodOf]
  | a :: b :: l => exact polyProd_eq _

theorem zem_em (hc : cfg.Ok) {m : Mono D} {K : Key} (hm : m.1 ≠ 0) (hk : IsKey m.2 K) : Zf.EM cfg Zf.Sb (em m) := by
  obtain ⟨q, P⟩ := m
  have hP := hk.2.2
  simp only at hP hm
  subst hP
  have hA : ∀ e ∈ (rl q K.facs : List (Expr D)), EM e ∧ Zf.EM cfg Zf.Sb e := by
    intro e h
    unfold rl at h
    rcases List.mem_append.1 h with h | h
    · split at h
      · simp at h
      · rw [List.mem_singleton.1 h]; exact ⟨EM.num _, Zf.EM.num Zf.kl_sb _⟩
    · rw [Key.facs_map] at h
      obtain ⟨x, hx, rfl⟩ := List.mem_map.1 h
      exact ⟨EM.symFac (hk.1 x hx), zem_symFac (hk.1 x hx)⟩
  by_cases hne : (rl q K.facs : List (Expr D)) = []
  · have : em (q, (K.facs : List (Expr D × ℕ))) = (one : Expr D) := by rw [em, mexpr, hne]; rfl
    rw [this, one_eq]; exact Zf.EM.num Zf.kl_sb _
  obtain ⟨r, r1, r2, r3⟩ := tot_prod_em hc (cfg := cfg) hne fun e he => (hA e he).1
  obtain ⟨r', s1, s2, s3⟩ := Zf.tot_prod_em hc Zf.kl_sb hne fun e he => (hA e he).2
  have e1 : r = em (q, K.facs) := r2.1.unique (EP.mono hm hk) (by rw [r3, em, mexpr, poly_prodOf])
  rw [← e1, r1.unique s1]; exact s2

theorem EP.zep (hc : cfg.Ok) {e : Expr D} (he : EP e) : Zf.EP cfg Zf.Sb e := by
  rcases he.cases with rfl | ⟨m, K, hm, hK, rfl⟩ | ⟨L, hL, h2, rfl⟩
  · exact Zf.EP.zero
  · exact (zem_em hc hm hK).1
  · have hm : ∀ m ∈ L, ∃ K, IsKey m.2 K := fun m hm => hL.ks.key m hm
    have hne : (L.map em : List (Expr D)) ≠ [] := by
      intro h; rw [List.map_eq_nil_iff.1 h] at h2; simp at h2
    obtain ⟨r, r1, r2, r3⟩ := tot_sum_ep hc (cfg := cfg) hne (fun e he => by
      obtain ⟨m, h, rfl⟩ := List.mem_map.1 he
      obtain ⟨K, hK⟩ := hm m h
      exact EP.mono (hL.ne m h) hK)
    obtain ⟨r', s1, s2, s3⟩ := Zf.tot_sum_ep hc (cfg := cfg) (K := Zf.Sb) hne (fun e he => by
      obtain ⟨m, h, rfl⟩ := List.mem_map.1 he
      obtain ⟨K, hK⟩ := hm m h
      exact (zem_em hc (hL.ne m h) hK).1)
    have e1 : r = .sum (L.map em) := r2.unique he (by rw [r3, poly_sum])
    rw [← e1, r1.unique s1]; exact s2

/-! ## Products of powers of polynomials -/

/-- The powers with positive exponents. -/
noncomputable def pp (c : Expr D →₀ ℤ) : MvPolynomial Sym ℚ := c.prod fun b k => poly b ^ k.toNat

theorem pp_eq (c : Expr D →₀ ℤ) {S : Finset (Expr D)} (h : c.support ⊆ S) : pp c = ∏ b ∈ S, poly b ^ (c b).toNat :=
  Finsupp.prod_of_support_subset c h _ (by simp)

theorem pp_sub (A B : Expr D →₀ ℤ) (hA : ∀ b, 0 ≤ A b) (hB : ∀ b, 0 ≤ B b) : pp (A - B) * pp B = pp A * pp (-(A - B)) := by
  set S := A.support ∪ B.support with hS
  have h1 : A.support ⊆ S := Finset.subset_union_left
  have h2 : B.support ⊆ S := Finset.subset_union_right
  have h3 : (A - B).support ⊆ S := Finsupp.support_sub
  have h4 : (-(A - B)).support ⊆ S := by rw [Finsupp.support_neg]; exact h3
  rw [pp_eq _ h1, pp_eq _ h2, pp_eq _ h3, pp_eq _ h4, ← Finset.prod_mul_distrib, ← Finset.prod_mul_distrib]
  refine Finset.prod_congr rfl fun b _ => ?_
  rw [← pow_add, ← pow_add]
  congr 1
  have := hA b; have := hB b
  simp only [Finsupp.sub_apply, Finsupp.neg_apply]; omega

theorem pp_dvd (A B : Expr D →₀ ℤ) (hB : ∀ b, 0 ≤ B b) : pp (A - B) ∣ pp A := by
  set S := A.support ∪ B.support with hS
  have h1 : A.support ⊆ S := Finset.subset_union_left
  have h3 : (A - B).support ⊆ S := Finsupp.support_sub
  rw [pp_eq _ h1, pp_eq _ h3]
  refine Finset.prod_dvd_prod_of_dvd _ _ fun b _ => pow_dvd_pow _ ?_
  have := hB b
  simp only [Finsupp.sub_apply]; omega

theorem prod_can {P : List (Expr D × ℤ)} (h : Zf.Can cfg P) (g : Expr D → ℤ → MvPolynomial Sym ℚ) (h0 : ∀ b, g b 0 = 1) :
    (Zf.cnt P).prod g = (P.map fun f => g f.1 f.2).prod := by
  induction P with
  | nil => simp
  | cons f P ih =>
    rw [Zf.cnt_cons, List.map_cons, List.prod_cons, ← ih h.cons.2.1]
    have hn : Zf.cnt P f.1 = 0 := Zf.cnt_none h.ne
    rw [Finsupp.prod_add_index_of_disjoint]
    · rw [Finsupp.prod_single_index (h0 _)]
    · rw [Finset.disjoint_left]
      intro b hb
      have := Finsupp.support_single_subset hb
      rw [Finset.mem_singleton] at this
      subst this
      simp [hn]

theorem pp_can {P : List (Expr D × ℤ)} (h : Zf.Can cfg P) : pp (Zf.cnt P) = (P.map fun f => poly f.1 ^ f.2.toNat).prod :=
  prod_can h _ (by simp)

theorem pp_neg_can {P : List (Expr D × ℤ)} (h : Zf.Can cfg P) : pp (-Zf.cnt P) = (P.map fun f => poly f.1 ^ (-f.2).toNat).prod := by
  have := prod_can h (fun b k => poly b ^ (-k).toNat) (by simp)
  rw [← this, pp, Finsupp.prod_neg_index (by simp)]

/-! ## Terms -/

/-- A polynomial that is not zero as a product: a monomial, or one sum. -/
structure Pt (cfg : Cfg D) (u : Expr D) (q : ℚ) (P : List (Expr D × ℤ)) : Prop where
  eq : u = Zf.mexpr q P
  ne : q ≠ 0
  can : Zf.Can cfg P
  pos : ∀ f ∈ P, 0 < f.2
  shape : (∀ f ∈ P, ∃ s, f.1 = .sym s) ∨ (q = 1 ∧ P = [(u, 1)] ∧ u.isSum = true)
  ep : ∀ f ∈ P, EP f.1
  poly : poly u = MvPolynomial.C q * pp (Zf.cnt P)

theorem EP.sym {s : Sym} (h : s.id.Ok) : EP (.sym s : Expr D) := by
  have := (EM.symFac (D := D) (x := (s, 1)) ⟨h, le_refl 1⟩).1
  simpa [Tsym.symFac, fac] using this

theorem EP.pt (hc : cfg.Ok) {u : Expr D} (hu : EP u) (h0 : poly u ≠ 0) : ∃ q P, Pt cfg u q P := by
  rcases hu.cases with rfl | ⟨m, K, hm, hK, rfl⟩ | ⟨L, hL, h2, rfl⟩
  · exact absurd poly_zero h0
  · obtain ⟨q, P⟩ := m
    have hP := hK.2.2
    simp only at hP hm
    subst hP
    set P : List (Expr D × ℤ) := K.map fun x => ((.sym x.1 : Expr D), (x.2 : ℤ)) with hP
    have hZ : Zf.ZFs cfg P := by
      intro f hf
      obtain ⟨x, hx, rfl⟩ := List.mem_map.1 hf
      exact ⟨Zf.zb_sym (hK.1 x hx).1, by have := (hK.1 x hx).2; simp only [ne_eq, Nat.cast_eq_zero]; omega⟩
    have hrl : (rl q K.facs : List (Expr D)) = Zf.rl q P := by
      unfold rl Zf.rl
      rw [Key.facs_map, hP, List.map_map]
      congr 1
      refine List.map_congr_left fun x _ => ?_
      unfold Tsym.symFac fac
      simp only [Function.comp, Zf.fac, Nat.cast_eq_one]
    have he : em (q, (K.facs : List (Expr D × ℕ))) = Zf.mexpr q P := by rw [em, mexpr, hrl]; rfl
    have hcan : Zf.Can cfg P := by
      rcases (zem_em (cfg := cfg) hc hm hK).cases with h | ⟨m, m1, m2, m3, m4⟩
      · rw [h] at h0; exact absurd poly_zero h0
      · rw [he] at m4
        have := (Zf.mexpr_inj hZ m2.facs m4).2
        rw [this]; exact m2
    refine ⟨q, P, he, hm, hcan, ?_, .inl ?_, ?_, ?_⟩
    · intro f hf
      obtain ⟨x, hx, rfl⟩ := List.mem_map.1 hf
      have := (hK.1 x hx).2
      simp only [Nat.cast_pos]; omega
    · intro f hf
      obtain ⟨x, hx, rfl⟩ := List.mem_map.1 hf
      exact ⟨_, rfl⟩
    · intro f hf
      obtain ⟨x, hx, rfl⟩ := List.mem_map.1 hf
      exact EP.sym (hK.1 x hx).1
    · rw [pp_can hcan, em, mexpr, poly_prodOf]
      have hs : ((K.map Tsym.symFac).map (poly (D := D))).prod = (P.map fun f => Tsym.poly f.1 ^ f.2.toNat).prod := by
        rw [hP, List.map_map, List.map_map]
        congr 1
        refine List.map_congr_left fun x hx => ?_
        simp only [Function.comp, Int.toNat_natCast]
        unfold Tsym.symFac fac
        split
        · rename_i h; simp only at h; rw [h, pow_one]
        · simp [Tsym.poly, Expr.int]
      unfold rl
      rw [Key.facs_map, List.map_append, List.prod_append, hs]
      congr 1
      split
      · rename_i h; simp only at h; simp [h]
      · simp [poly_ratE]
  · have hz : Zf.ZB cfg (.sum (L.map em) : Expr D) := by
      rcases (hu.zep hc).cases with h | ⟨m, m1, m2, m3, m4⟩ | ⟨L', hL', h2', e⟩
      · exact absurd h (by simp [zero_eq])
      · have := (Zf.EM.mono Zf.kl_sb m1 m2 m3).2
        rw [← m4] at this; cases this
      · rw [e]; exact Zf.zb_sum hL'.sl h2'
    have hcan : Zf.Can cfg [((.sum (L.map em) : Expr D), (1 : ℤ))] := Zf.Can.single ⟨hz, one_ne_zero⟩
    refine ⟨1, [(.sum (L.map em), 1)], ?_, one_ne_zero, hcan, by simp, .inr ⟨rfl, rfl, rfl⟩, ?_, ?_⟩
    · rw [← Zf.fac_mexpr]; simp [Zf.fac]
    · intro f hf; rw [List.mem_singleton.1 hf]; exact hu
    · rw [pp_can hcan]; simp

theorem Pt.poly_ne {u : Expr D} {q : ℚ} {P : List (Expr D × ℤ)} (h : Pt cfg u q P) (h0 : Tsym.poly u ≠ 0) : ∀ f ∈ P, Tsym.poly f.1 ≠ 0 := by
  intro f hf h1
  rw [h.poly, pp_can h.can] at h0
  refine h0 (mul_eq_zero_of_right _ ?_)
  rw [List.prod_eq_zero_iff]
  refine List.mem_map.2 ⟨f, hf, ?_⟩
  have := h.pos f hf
  rw [h1, zero_pow (by omega)]

/-! ## Products with at most one sum -/

theorem tot_prod_mix (hc : cfg.Ok) {A : List (Expr D)} (hne : A ≠ []) (h : ∀ e ∈ A, EP e ∧ poly e ≠ 0)
    (hs : (∀ e ∈ A, EM e) ∨ ∃ A₁ s A₂, A = A₁ ++ s :: A₂ ∧ ∀ e ∈ A₁ ++ A₂, ∃ q : ℚ, e = .num (.rat q)) :
    ∃ r, Tot cfg (fun E => E.prodCreate A) r ∧ EP r ∧ poly r = (A.map poly).prod := by
  by_cases hm : ∀ e ∈ A, EM e
  · obtain ⟨r, r1, r2, r3⟩ := tot_prod_em hc (cfg := cfg) hne hm
    exact ⟨r, tot_prod r1, r2.1, r3⟩
  obtain ⟨A₁, s, A₂, rfl, hn⟩ := hs.resolve_left hm
  have hsum : s.isSum = true := by
    by_contra hs'
    refine hm fun e he => ?_
    rw [List.mem_append, List.mem_cons] at he
    by_cases hes : e = s
    · subst hes; exact ⟨(h e (by simp)).1, by simpa using hs'⟩
    · obtain ⟨q, rfl⟩ := hn e (by rw [List.mem_append]; tauto)
      exact EM.num q
  have hsE := (h s (by simp)).1
  rcases hsE.cases with h1 | ⟨m, K, hm', hK, h1⟩ | ⟨L, hL, h2, hsL⟩
  · rw [h1] at hsum; cases hsum
  · have := (EM.mono hm' hK).2
    rw [← h1, hsum] at this; cases this
  have bS : PBase cfg (.sum (L.map em) : Expr D) := pbase_sum (B := fun _ => True) (hL.sl (by simp)) h2
  have hms : (.sum (L.map em) : Expr D) = mexpr 1 [(.sum (L.map em), 1)] := by simp [mexpr, rl_one, prodOf, fac]
  -- the numbers
  have hnum : ∀ B : List (Expr D), (∀ e ∈ B, ∃ q : ℚ, e = .num (.rat q)) → (∀ e ∈ B, poly e ≠ 0) → ∃ Ms : List (Mono D),
      (∀ m ∈ Ms, m.1 ≠ 0 ∧ m.2 = []) ∧ B = Ms.map (fun m => mexpr m.1 m.2) ∧ (B.map poly).prod = MvPolynomial.C (Ms.map (·.1)).prod := by
    intro B hB hB0
    induction B with
    | nil => exact ⟨[], by simp, rfl, by simp⟩
    | cons e B ih =>
      obtain ⟨Ms, m1, m2, m3⟩ := ih (fun x hx => hB x (by simp [hx])) fun x hx => hB0 x (by simp [hx])
      obtain ⟨q, rfl⟩ := hB e (by simp)
      refine ⟨(q, []) :: Ms, ?_, by rw [m2]; simp [num_mexpr], by simp [m3, poly_ratE]⟩
      intro m hm
      rcases List.mem_cons.1 hm with rfl | hm
      · refine ⟨fun h0 => hB0 (.num (.rat q)) (by simp) (by simp only at h0; rw [poly_ratE, h0, map_zero]), rfl⟩
      · exact m1 m hm
  obtain ⟨M₁, a1, a2, a3⟩ := hnum A₁ (fun e he => hn e (by simp [he])) fun e he => (h e (by simp [he])).2
  obtain ⟨M₂, b1, b2, b3⟩ := hnum A₂ (fun e he => hn e (by simp [he])) fun e he => (h e (by simp [he])).2
  by_cases hl : A₁ ++ s :: A₂ = [s]
  · refine ⟨s, tot_prod ?_, hsE, by rw [hl]; simp⟩
    rw [hl]
    unfold prodCreate
    have hz : s.isZero = false := by rw [hsL]; rfl
    have hu : s.isUndefined = false := hsE.isUndefined
    simp only [List.any_cons, List.any_nil, hz, hu, Bool.or_false, Bool.false_eq_true, if_false]
    exact tot_pure _
  obtain ⟨R, hR, t1, t2⟩ := tot_prodCreate hc (Ms := M₁ ++ (1, [(.sum (L.map em), 1)]) :: M₂) (by
    intro n hn
    rw [List.mem_append, List.mem_cons] at hn
    rcases hn with hn | rfl | hn
    · exact ⟨(a1 n hn).1, by rw [(a1 n hn).2]; simp [PFacs]⟩
    · refine ⟨one_ne_zero, ?_⟩
      intro f hf; rw [List.mem_singleton.1 hf]; exact ⟨bS, le_refl 1⟩
    · exact ⟨(b1 n hn).1, by rw [(b1 n hn).2]; simp [PFacs]⟩) (by
    intro hlen
    refine hl ?_
    rw [List.length_append, List.length_cons] at hlen
    have e1 : M₁ = [] := List.length_eq_zero_iff.1 (by omega)
    have e2 : M₂ = [] := List.length_eq_zero_iff.1 (by omega)
    rw [a2, b2, e1, e2]; rfl)
  have hfl : ∀ Ms : List (Mono D), (∀ m ∈ Ms, m.1 ≠ 0 ∧ m.2 = []) → Ms.flatMap (·.2) = [] := by
    intro Ms hMs
    rw [List.flatMap_eq_nil_iff]
    exact fun m hm => (hMs m hm).2
  have hA : (M₁ ++ (1, [(.sum (L.map em), 1)]) :: M₂).map (fun m : Mono D => mexpr m.1 m.2) = A₁ ++ s :: A₂ := by
    rw [List.map_append, List.map_cons, ← hms, ← a2, ← b2, hsL]
  rw [hA] at t1 t2
  simp only [List.flatMap_append, List.flatMap_cons, hfl M₁ a1, hfl M₂ b1, List.nil_append, List.append_nil] at hR
  have hR' := norm_single rfl hR
  set q : ℚ := ((M₁ ++ (1, [((.sum (L.map em) : Expr D), 1)]) :: M₂).map (·.1)).prod with hq
  have hqv : q = (M₁.map (·.1)).prod * (M₂.map (·.1)).prod := by
    rw [hq]; simp
  have hpoly : ((A₁ ++ s :: A₂).map poly).prod = MvPolynomial.C q * poly s := by
    rw [List.map_append, List.map_cons, List.prod_append, List.prod_cons, a3, b3, hqv, map_mul]; ring
  by_cases hq1 : q = 1
  · have := t1 fun hn => hn.1 hq1
    rw [hR', hq1, ← hms, ← hsL] at this
    exact ⟨_, tot_prod this, hsE, by rw [hpoly, hq1]; simp⟩
  · have hn : Nx q R := ⟨hq1, _, hR'⟩
    have hrl : rl q R = [.num (.rat q), .sum (L.map em)] := by rw [hR', rl_ne hq1]; simp [fac]
    rw [hrl] at t2
    rw [hsL] at hsE
    obtain ⟨r, hr, er, pr⟩ := tot_expand_one hc (l := [.num (.rat q), .sum (L.map em)]) (by
      intro x hx
      simp only [List.mem_cons, List.not_mem_nil, or_false] at hx
      rcases hx with rfl | rfl
      exacts [EP.num q, hsE]) (by simp [Expr.isSum, List.filter_cons])
    exact ⟨r, tot_prod (t2 hn r hr), er, by rw [hpoly, pr, hsL]; simp [poly_ratE]⟩

/-! ## Conditions that hold at some points -/

/-- From some depth on the call returns `a`, with conditions that hold where `S` does. -/
def Rs (cfg : Cfg D) (S : Asg → Prop) {α : Type} (f : Eng D → M D α) (a : α) : Prop :=
  ∃ N cs, (∀ c ∈ cs, ∀ σ : Asg, S σ → Cond.holds σ c) ∧ ∀ n, N ≤ n → f (eng cfg n) = .ok (a, cs)

theorem Triv.holds {cs : List (Cond D)} (h : Triv cs) : ∀ c ∈ cs, ∀ σ : Asg, Cond.holds σ c := by
  intro c hc σ
  obtain ⟨q, hq, rfl⟩ := h c hc
  exact ⟨q, by simp [den], by exact_mod_cast hq⟩

theorem Rts.rs {α : Type} {f : Eng D → M D α} {a : α} {S : Asg → Prop} (h : Rts cfg f a) : Rs cfg S f a := by
  obtain ⟨N, cs, h1, hN⟩ := h
  exact ⟨N, cs, fun c hc σ _ => h1.holds c hc σ, hN⟩

theorem Tot.rs {α : Type} {f : Eng D → M D α} {a : α} {S : Asg → Prop} (h : Tot cfg f a) : Rs cfg S f a := h.rts.rs

theorem Rs.mono {α : Type} {f : Eng D → M D α} {a : α} {S S' : Asg → Prop} (h : Rs cfg S f a) (hS : ∀ σ, S' σ → S σ) : Rs cfg S' f a := by
  obtain ⟨N, cs, h1, hN⟩ := h
  exact ⟨N, cs, fun c hc σ hσ => h1 c hc σ (hS σ hσ), hN⟩

theorem rs_bind {α β : Type} {S : Asg → Prop} {f : Eng D → M D α} {g : Eng D → α → M D β} {a : α} {b : β}
    (hf : Rs cfg S f a) (hg : Rs cfg S (fun E => g E a) b) : Rs cfg S (fun E => f E >>= g E) b := by
  obtain ⟨N, cs, h1, hN⟩ := hf
  obtain ⟨K, ds, h2, hK⟩ := hg
  refine ⟨max N K, cs ++ ds, fun c hc => (List.mem_append.1 hc).elim (h1 c) (h2 c), fun n hn => ?_⟩
  exact M.bind_ok.2 ⟨a, cs, ds, hN n (le_trans (le_max_left _ _) hn), hK n (le_trans (le_max_right _ _) hn), rfl⟩

theorem rs_succ {α : Type} {S : Asg → Prop} {f g : Eng D → M D α} {a : α} (h : ∀ n, g (eng cfg (n + 1)) = f (eng cfg n)) (hf : Rs cfg S f a) :
    Rs cfg S g a := by
  obtain ⟨N, cs, h1, hN⟩ := hf
  refine ⟨N + 1, cs, h1, fun n hn => ?_⟩
  obtain ⟨m, rfl⟩ : ∃ m, n = m + 1 := ⟨n - 1, by omega⟩
  rw [h]; exact hN m (by omega)

theorem rs_log {S : Asg → Prop} {c : Cond D} (h : ∀ σ, S σ → Cond.holds σ c) : Rs cfg S (fun _ => M.log c) () :=
  ⟨0, [c], fun x hx σ hσ => by rw [List.mem_singleton.1 hx]; exact h σ hσ, fun _ _ => rfl⟩

theorem rs_capture {α : Type} {S : Asg → Prop} {f : Eng D → M D α} {a : α} (h : Rs cfg S f a) :
    ∃ cs, (∀ c ∈ cs, ∀ σ : Asg, S σ → Cond.holds σ c) ∧ Tot cfg (fun E => M.capture (f E)) (a, cs) := by
  obtain ⟨N, cs, h1, hN⟩ := h
  exact ⟨cs, h1, N, fun n hn => capture_ok (hN n hn)⟩

theorem rs_emit {S : Asg → Prop} {cs : List (Cond D)} (h : ∀ c ∈ cs, ∀ σ : Asg, S σ → Cond.holds σ c) :
    Rs cfg S (fun _ => (M.emit ((cs ++ [] ++ []).map (Cond.within [])) : M D Unit)) () := by
  refine ⟨0, (cs ++ [] ++ []).map (Cond.within []), fun c hc σ hσ => ?_, fun n _ => rfl⟩
  obtain ⟨c', h1, rfl⟩ := List.mem_map.1 hc
  simp only [List.append_nil] at h1
  exact h c' h1 σ hσ

/-! ## Cancellation -/

/-- Polynomials within the limits for greatest common divisors. -/
structure Lim (cfg : Cfg D) (p : MvPolynomial Sym ℚ) (R : List Sym) (d : ℕ) : Prop where
  deg : ∀ t, p.degreeOf t ≤ d
  vars : ∀ t, t ∉ R → p.degreeOf t = 0

theorem Lim.of_dvd {p q : MvPolynomial Sym ℚ} {R : List Sym} {d : ℕ} (h : Lim cfg q R d) (hq : q ≠ 0) (hd : p ∣ q) : Lim cfg p R d :=
  ⟨fun t => le_trans (degreeOf_dvd t hq hd) (h.deg t), fun t ht => by
    have := degreeOf_dvd t hq hd
    rw [h.vars t ht] at this; omega⟩

theorem rts_divide_exact (hc : cfg.Ok) (hp : cfg.maxPrime < 324) {u v : Expr D} (hu : EP u) (hv : EP v) (h0 : poly u ≠ 0) (hd : poly v ∣ poly u)
    (hb : ∀ t, ((poly u).degreeOf t : ℤ) < intMax) :
    ∃ q, Rts cfg (fun E => E.divide u v) (q, zero) ∧ EP q ∧ poly u = poly q * poly v := by
  have hbv : ∀ t, ((poly v).degreeOf t : ℤ) < intMax := fun t => lt_of_le_of_lt (by exact_mod_cast degreeOf_dvd t h0 hd) (hb t)
  obtain ⟨L, l1, l2, l3, l4⟩ := tot_listOfSymbols hc hu hv hb hbv
  obtain ⟨q, q1, q2, q3⟩ := divideL_exact hc L u v l2 hu hv h0 hd (fun f _ => .inl hp) hb fun t ht => (l3 t ht).1
  refine ⟨q, rts_succ (fun _ => rfl) (f := fun E => polyDivide E u v) ?_, q2, q3⟩
  unfold polyDivide
  exact rts_bind l1.rts q1

/-- Numerator and denominator divided by their greatest common divisor. -/
theorem rs_cancel (hc : cfg.Ok) (hp : cfg.maxPrime < 324) {k d : ℕ} (hg : GcdAt cfg k d) (hd : (d : ℤ) < intMax) {R : List Sym} (hR : R.length ≤ k)
    {u v : Expr D} (hu : EP u) (hv : EP v) (h0 : poly u ≠ 0) (h1 : poly v ≠ 0) (lu : Lim cfg (poly u) R d) (lv : Lim cfg (poly v) R d) :
    ∃ a b G, Rs cfg (fun σ => pval σ (poly v) ≠ 0) (fun E => cancel E ⟨u, v⟩) ⟨a, b⟩ ∧ EP a ∧ EP b ∧ poly u = poly a * G ∧ poly v = poly b * G ∧
      ∀ x, x ∣ poly a → x ∣ poly b → IsUnit x := by
  unfold cancel
  by_cases o : v.isOne = true
  · have hv1 : v = one := hv.unique (by rw [one_eq]; exact EP.num 1) (by rw [hv.isOne_poly o, one_eq, poly_ratE]; simp)
    subst hv1
    refine ⟨u, one, 1, ?_, hu, hv, by simp, by simp, fun x _ hx => ?_⟩
    · simp only [o, if_true]; exact (tot_pure _).rs
    · rw [hv.isOne_poly o] at hx; exact isUnit_of_dvd_one hx
  have hz : u.isZero = false := by rw [Bool.eq_false_iff]; exact fun h => h0 (hu.isZero.1 h)
  simp only [o, hz, Bool.false_eq_true, if_false]
  obtain ⟨g, g1, g2, g3⟩ := polyGcd_ok hc hg hd hR hu hv (.inl h0) lu.deg lv.deg lu.vars lv.vars
  have hgne := g3.ne_zero (.inl h0)
  have hbu : ∀ t, ((poly u).degreeOf t : ℤ) < intMax := fun t => by have := lu.deg t; omega
  have hbv : ∀ t, ((poly v).degreeOf t : ℤ) < intMax := fun t => by have := lv.deg t; omega
  obtain ⟨b, b1, b2, b3⟩ := rts_divide_exact hc hp hv g2 h1 g3.right hbv
  obtain ⟨a, a1, a2, a3⟩ := rts_divide_exact hc hp hu g2 h0 g3.left hbu
  have g1' : Rts cfg (fun E => E.gcd u v) g := rts_succ (fun _ => rfl) (f := fun E => polyGcd E u v) g1
  refine ⟨a, b, poly g, ?_, a2, b2, a3, b3, fun x hx hx' => ?_⟩
  · refine rs_bind (rts_expandsToZero hc hv.pol h1).rs ?_
    simp only [Bool.false_eq_true, if_false]
    unfold cancelNonTrivial
    refine rs_bind (rts_silent g1').rs (rs_bind b1.rs (rs_bind a1.rs (rs_bind (rs_log fun σ hσ => ?_) (rs_bind (tot_logIf (by rfl)).rs ?_))))
    · refine ⟨_, den_poly g g2.polyE, fun h => hσ ?_⟩
      rw [b3]; unfold pval at h ⊢; rw [map_mul, h, mul_zero]
    · exact (tot_pure _).rs
  · have : x * poly g ∣ poly g := g3.greatest _ (by rw [a3]; exact mul_dvd_mul_right hx _) (by rw [b3]; exact mul_dvd_mul_right hx' _)
    obtain ⟨w, hw⟩ := this
    refine IsUnit.of_mul_eq_one w (mul_right_cancel₀ hgne ?_)
    rw [one_mul]
    conv_rhs => rw [hw]
    ring

end Tsym
