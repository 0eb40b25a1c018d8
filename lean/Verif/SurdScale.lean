import Verif.SurdMerge
import Verif.TrigTable
import Verif.PolyExpand

set_option autoImplicit false
set_option linter.unusedSectionVars false
set_option linter.unusedSimpArgs false
set_option linter.unusedVariables false

/-!
# Helper lemmas: numbers times sums of multiples of square roots
-/

namespace Tsym.Sd

open Expr NumPowerSimpl

variable {D : Type} [Flt D] [LawfulFlt D] {cfg : Cfg D}

/-- All multiples of the roots times a number. -/
def scale (p : ℚ) (L : List Mo) : List Mo := L.map fun m => (p * m.1, m.2)

theorem SL.scale {p : ℚ} {L : List Mo} (h : SL L) (hp : p ≠ 0) (hc : ∀ m ∈ L, p.den.Coprime m.2) : SL (scale p L) := by
  refine ⟨fun m hm => ?_, ?_⟩
  · obtain ⟨n, hn, rfl⟩ := List.mem_map.1 hm
    exact SM.mul hp (hc n hn) (h.sm n hn)
  · exact List.pairwise_map.2 h.sorted

theorem co_scale (p : ℚ) (L : List Mo) (n : ℕ) : co (scale p L) n = p * co L n := by
  induction L with
  | nil => simp [scale]
  | cons m L ih =>
    have : scale p (m :: L) = (p * m.1, m.2) :: scale p L := rfl
    rw [this, co_cons, co_cons, Finsupp.add_apply, Finsupp.add_apply, ih, mul_add]
    simp only [Finsupp.single_apply]
    split <;> simp

theorem cs_em {m : Mo} (h : SM m.1 m.2) : CS cfg (em m : Expr D) := by
  obtain ⟨p, a⟩ := m
  by_cases ha : a = 1
  · subst ha; rw [em_one]; exact cs_num h.ne
  · exact (h.st ha).cs

theorem tot_scale_one (hc : cfg.Ok) {p : ℚ} {m : Mo} (h : SM m.1 m.2) (hp : p ≠ 0) (hp1 : p ≠ 1) (hcp : p.den.Coprime m.2) :
    Tot cfg (fun E => prodCreate E [num (.rat p), (em m : Expr D)]) (em (p * m.1, m.2)) := by
  obtain ⟨q, n⟩ := m
  have hm := SM.mul hp hcp h
  by_cases hn : n = 1
  · subst hn
    simp only [em_one]
    exact tot_num_num hp h.ne
  · have hn' : (n : ℚ) ≠ 1 := by exact_mod_cast hn
    by_cases h1 : p * q = 1
    · have hq : q ≠ 1 := by rintro rfl; rw [mul_one] at h1; exact hp1 h1
      have := tot_num_surd_one (D := D) hc hn' hp hq h1
      have e : (em (p * q, n) : Expr D) = rootE (n : ℚ) := by rw [em_root (show (p * q, n).2 ≠ 1 from hn), if_pos h1]
      rw [e]
      exact this
    · exact tot_num_surd hc (h.st hn) hp (.inl hp1) h1 (hm.rootOf _) h1 hn' (hm.st hn)

theorem sum_self {L : List Mo} (h : SL L) (h2 : 2 ≤ L.length) :
    Tot cfg (fun E => sumCreate E (L.map (em (D := D)))) (.sum (L.map em)) := by
  obtain ⟨R, hR, A⟩ := tot_sumCreate (D := D) (cfg := cfg) (Ls := L.map fun m => [m]) (by intro e; rw [List.map_eq_nil_iff] at e; rw [e] at h2; simp at h2) (by
    intro l hl
    obtain ⟨m, hm, rfl⟩ := List.mem_map.1 hl
    exact SL.single (h.sm m hm))
  have e : (L.map fun m => [m]).map (fun l => sumOf (l.map (em (D := D)))) = L.map em := by
    rw [List.map_map]; rfl
  have hco : co R = co L := by
    rw [A.co, List.map_map]
    unfold co
    congr 1
    refine List.map_congr_left fun m _ => ?_
    simp
  rw [e, SL.ext A.sl h hco] at hR
  have e2 : sumOf (L.map (em (D := D))) = .sum (L.map em) := by
    match L, h2 with
    | m :: m' :: L, _ => rfl
  rwa [e2] at hR

theorem tot_scale (hc : cfg.Ok) {p : ℚ} {L : List Mo} (h : SL L) (hp : p ≠ 0) (hp1 : p ≠ 1) (hcp : ∀ m ∈ L, p.den.Coprime m.2) :
    Tot cfg (fun E => prodCreate E [num (.rat p), sumOf (L.map (em (D := D)))]) (sumOf ((scale p L).map em)) := by
  have z : (num (.rat p) : Expr D).isZero = false := by rw [isZero_ratE]; simpa using hp
  have o : (num (.rat p) : Expr D).isOne = false := by rw [isOne_ratE]; simpa using hp1
  have u : (num (.rat p) : Expr D).isUndefined = false := rfl
  match L, h, hcp with
  | [], _, _ =>
    have z0 : (zero : Expr D).isZero = true := by rw [zero_eq, isZero_ratE]; simp
    simp only [List.map_nil, sumOf, Sd.scale, prodCreate, List.any_cons, List.any_nil, u, z, z0, show (zero : Expr D).isUndefined = false from rfl, Bool.or_self, Bool.or_false,
      Bool.false_or, Bool.false_eq_true, if_false, if_true]
    exact tot_pure _
  | [m], h, hcp =>
    simp only [List.map_cons, List.map_nil, sumOf, Sd.scale]
    exact tot_scale_one hc h.cons.1 hp hp1 (hcp m (by simp))
  | m :: m' :: L, h, hcp =>
    set M : List Mo := m :: m' :: L with hM
    have hs2 : sumOf (M.map (em (D := D))) = .sum (M.map em) := rfl
    have hs3 : sumOf ((Sd.scale p M).map (em (D := D))) = .sum ((Sd.scale p M).map em) := rfl
    have hsl := h.scale hp hcp
    rw [hs2, hs3]
    have hs : Tot cfg (fun E => sumCreate E (M.map (em (D := D)))) (.sum (M.map em)) := sum_self h (by simp [hM])
    have hv : Tot cfg (fun E => sumCreate E ((Sd.scale p M).map (em (D := D)))) (.sum ((Sd.scale p M).map em)) := sum_self hsl (by simp [hM, Sd.scale])
    have cs : (Expr.sum (M.map (em (D := D)))).isConst = true := by
      have : ∀ K : List Mo, allConst (K.map (em (D := D))) = true := by
        intro K
        induction K with
        | nil => rfl
        | cons k K ih => simp [allConst, em_isConst, ih]
      simp only [isConst, this]
      simp [hM]
    generalize hl : M.map (em (D := D)) = l at *
    have cn : (num (.rat p) : Expr D).isConst = true := by simp [isConst]
    simp only [prodCreate, List.any_cons, List.any_nil, u, show (Expr.sum l : Expr D).isUndefined = false from rfl, z,
      show (Expr.sum l : Expr D).isZero = false from rfl, Bool.or_self, Bool.false_eq_true, if_false]
    refine tot_bind (a := [num (.rat p), .sum l]) (tot_prodSimplify ?_) ?_
    · unfold simplProd
      refine tot_bind (a := [num (.rat p), .sum l]) ?_ ?_
      · exact tot_extract (cfg := cfg) (u := [num (.rat p), .sum l]) (by simp)
      refine tot_bind (a := [num (.rat p), .sum l]) (tot_contract_pw (simpl := fun E => contractTrigFctPowers E) (by simp [num_trig_pair])) ?_
      simp only [simplTwoFactors, show (num (.rat p) : Expr D).isProduct = false from rfl, show (Expr.sum l : Expr D).isProduct = false from rfl,
        Bool.or_self, Bool.false_eq_true, if_false, simplTwoFactorsWithoutProduct, o, show (Expr.sum l : Expr D).isOne = false from rfl, cn, cs, Bool.and_self,
        if_true, simplTwoConst, simplNumAndConst]
      exact tot_pure _
    · have hne : needsExpansion [num (.rat p), .sum l] = true := by
        have c1 : constElements [num (.rat p), .sum l] = [num (.rat p), .sum l] := by
          simp only [constElements]
          rw [List.filter_cons_of_pos cn, List.filter_cons_of_pos cs, List.filter_nil]
        have c2 : nonConstElements [num (.rat p), .sum l] = [] := by
          simp only [nonConstElements]
          rw [List.filter_cons_of_neg (by simp [cn]), List.filter_cons_of_neg (by simp [cs]), List.filter_nil]
        simp [needsExpansion, c1, c2, Expr.isSum]
      simp only [hne, if_true]
      refine tot_expandAsProduct ?_
      unfold expandAsProduct
      have hxs : Tot cfg (fun E => E.expand (.sum l)) (.sum l) := by
        refine tot_expand ?_
        simp only [expand]
        refine tot_bind (a := l) ?_ (tot_sum hs)
        have := tot_mapL (cfg := cfg) (f := fun E e => E.expand e) (g := id) (l := l) (by
          intro e he
          rw [← hl] at he
          obtain ⟨k, hk, rfl⟩ := List.mem_map.1 he
          exact (cs_em (h.sm k hk)).exp)
        rwa [List.map_id] at this
      refine tot_bind (a := ([num (.rat p)], [.sum l])) ?_ ?_
      · simp only [defScalarAndSums]
        refine tot_bind (cs_num hp).exp (tot_bind (a := ([], [.sum l])) (tot_bind hxs (tot_bind (a := ([], [])) (tot_pure _) ?_)) ?_)
        · simp only [show (Expr.sum l : Expr D).isSum = true from rfl, if_true]; exact tot_pure _
        · simp only [show (num (.rat p) : Expr D).isSum = false from rfl, Bool.false_eq_true, if_false]; exact tot_pure _
      · simp only [List.isEmpty_cons, Bool.false_eq_true, if_false]
        refine tot_bind (tot_prod (tot_prod_single rfl z)) ?_
        simp only [expandSums]
        refine tot_bind (tot_pure _) ?_
        simp only [expandScalarSum]
        refine tot_bind (a := (Sd.scale p M).map em) ?_ (tot_sum hv)
        rw [← hl]
        clear hl hxs hs cs hv hs2 hs3 hsl
        clear_value M
        clear hM
        revert h hcp
        intro h hcp
        have sm : ∀ k ∈ M, SM k.1 k.2 := h.sm
        clear h
        induction M with
        | nil => exact tot_pure _
        | cons k K ih =>
          have hk := sm k (by simp)
          have hck := hcp k (by simp)
          exact tot_bind (tot_bind (tot_prod (tot_scale_one hc hk hp hp1 hck)) (cs_em (SM.mul hp hck hk)).exp)
            (tot_bind (ih (fun m hm => hcp m (by simp [hm])) (fun m hm => sm m (by simp [hm]))) (tot_pure _))

end Tsym.Sd
