import Verif.SymsNormal

set_option autoImplicit false
set_option linter.unusedSectionVars false

/-!
# Zero and Undefined as operands, and derivatives with respect to a symbol that does not occur
-/

namespace Tsym

open Expr

variable {D : Type} [Flt D] {C : Cond D → Prop}

/-- Zero or Undefined. -/
def ZU (r : Expr D) : Prop := r = zero ∨ r = .undef

theorem zero_isZero : (zero : Expr D).isZero = true := rfl

theorem sumCreate_undef (cfg : Cfg D) (n : Nat) {l : List (Expr D)} (h : .undef ∈ l) :
    wp C ((eng cfg n).sumCreate l) (· = .undef) := by
  cases n with
  | zero => exact wp_err
  | succ n =>
    have : l.any isUndefined = true := List.any_eq_true.2 ⟨_, h, rfl⟩
    simp only [eng, engStep, sumCreate, this, if_true]
    exact wp_pure rfl

theorem prodCreate_undef (cfg : Cfg D) (n : Nat) {l : List (Expr D)} (h : .undef ∈ l) :
    wp C ((eng cfg n).prodCreate l) (· = .undef) := by
  cases n with
  | zero => exact wp_err
  | succ n =>
    have : l.any isUndefined = true := List.any_eq_true.2 ⟨_, h, rfl⟩
    simp only [eng, engStep, prodCreate, this, if_true]
    exact wp_pure rfl

/-- A product with the factor zero is zero or Undefined. -/
theorem prodCreate_zero (cfg : Cfg D) (n : Nat) {l : List (Expr D)} (h : zero ∈ l) :
    wp C ((eng cfg n).prodCreate l) fun r => ZU r ∧ (.undef ∉ l → r = zero) := by
  cases n with
  | zero => exact wp_err
  | succ n =>
    have h0 : l.any isZero = true := List.any_eq_true.2 ⟨_, h, zero_isZero⟩
    simp only [eng, engStep, prodCreate, h0, if_true]
    refine wp_ite (fun hu => wp_pure ⟨.inr rfl, fun hn => ?_⟩) fun _ => wp_pure ⟨.inl rfl, fun _ => rfl⟩
    obtain ⟨x, hx, hxu⟩ := List.any_eq_true.1 hu
    cases x <;> simp [isUndefined] at hxu
    exact absurd hx hn

theorem prodCreate_zu (cfg : Cfg D) (n : Nat) {l : List (Expr D)} {z : Expr D} (h : z ∈ l) (hz : ZU z) :
    wp C ((eng cfg n).prodCreate l) ZU := by
  rcases hz with rfl | rfl
  · exact wp_mono (prodCreate_zero cfg n h) fun _ h => h.1
  · exact wp_mono (prodCreate_undef cfg n h) fun _ h => .inr h

theorem mergeSum_zero (cfg : Cfg D) (n : Nat) {l m : List (Expr D)} (hl : l = [] ∨ l = [zero])
    (hm : m = [] ∨ m = [zero]) : wp C ((eng cfg n).mergeSum l m) fun r => r = [] ∨ r = [zero] := by
  induction n generalizing l m with
  | zero => exact wp_err
  | succ n ih =>
    rcases hl with rfl | rfl <;> rcases hm with rfl | rfl
    · exact wp_pure (.inl rfl)
    · exact wp_pure (.inr rfl)
    · exact wp_pure (.inr rfl)
    · have h : simplTwoSummands (eng cfg n) (zero : Expr D) zero = Pure.pure [zero] := rfl
      simp only [eng, engStep, mergeSum, h]
      refine wp_bind (P := (· = [zero])) (wp_pure rfl) ?_
      rintro _ rfl
      simp only [zero_isZero, if_true]
      exact ih (.inl rfl) (.inl rfl)

theorem sumSimplify_eq (cfg : Cfg D) (n : Nat) : (eng cfg n).sumSimplify = (eng cfg n).simplSum := by
  cases n <;> rfl

theorem simplSum_zero (cfg : Cfg D) (n : Nat) {l : List (Expr D)} (h : ∀ x ∈ l, x = zero) :
    wp C ((eng cfg n).simplSum l) fun r => r = [] ∨ r = [zero] := by
  induction n generalizing l with
  | zero => exact wp_err
  | succ n ih =>
    match l with
    | [] => exact wp_err
    | [a] =>
      exact wp_bind (P := fun _ => False) (by cases n <;> exact wp_err) fun _ h => h.elim
    | [a, b] =>
      rw [h a (by simp), h b (by simp)]
      exact wp_pure (.inr rfl)
    | a :: b :: c :: l =>
      refine wp_bind (ih fun x hx => h x (by simp [hx])) fun r hr => ?_
      rw [h a (by simp)]
      exact mergeSum_zero cfg n (.inr rfl) hr

/-- A sum of zeros is zero. -/
theorem sumCreate_zero (cfg : Cfg D) (n : Nat) {l : List (Expr D)} (h : ∀ x ∈ l, x = zero) :
    wp C ((eng cfg n).sumCreate l) (· = zero) := by
  cases n with
  | zero => exact wp_err
  | succ n =>
    have hu : l.any isUndefined = false := by
      rw [Bool.eq_false_iff]
      intro hu
      obtain ⟨x, hx, hxu⟩ := List.any_eq_true.1 hu
      rw [h x hx] at hxu
      cases hxu
    have key : ∀ l : List (Expr D), (∀ x ∈ l, x = zero) → wp C (do
      let res ← (eng cfg n).sumSimplify l
      match res with
      | [] => Pure.pure zero
      | [r] => Pure.pure r
      | r => Pure.pure (.sum r)) (· = zero) := fun l h => by
      refine wp_bind (sumSimplify_eq cfg n ▸ simplSum_zero cfg n h) ?_
      rintro _ (rfl | rfl) <;> exact wp_pure rfl
    simp only [eng, engStep, sumCreate, hu]
    match l, h with
    | [], h => exact key _ h
    | [a], h => exact wp_pure (h a (by simp))
    | a :: b :: l, h => exact key _ h

theorem sumCreate_zu (cfg : Cfg D) (n : Nat) {l : List (Expr D)} (h : ∀ x ∈ l, ZU x) :
    wp C ((eng cfg n).sumCreate l) ZU := by
  by_cases hu : .undef ∈ l
  · exact wp_mono (sumCreate_undef cfg n hu) fun _ h => .inr h
  · refine wp_mono (sumCreate_zero cfg n fun x hx => ?_) fun _ h => .inl h
    exact (h x hx).resolve_right fun hx' => hu (hx' ▸ hx)

theorem eng_cfg' {cfg : Cfg D} : ∀ m, (eng cfg m).cfg = cfg
  | 0 => rfl
  | m + 1 => eng_cfg' m

/-- Nothing is replaced in an expression that `subst` leaves alone, if the map is empty. -/
theorem replaceBack_empty {cfg : Cfg D} (hcfg : cfg.Ok) (n : Nat) {e : Expr D}
    (he : e = .undef ∨ isEqual e e = true) : wp C (replaceBack (eng cfg n) [] e) (· = e) := by
  have h : (eng cfg n).cfg.mapOrder [] = [] := by
    rw [eng_cfg']
    exact List.Perm.eq_nil (hcfg.mapOrder [])
  unfold replaceBack
  refine wp_loop (I := (· = e)) ?_ _ _ rfl
  rintro s rfl
  simp only [replacePass, h, M.foldL]
  refine wp_bind (P := (· = s)) (wp_pure rfl) ?_
  rintro _ rfl
  rcases he with rfl | he
  · exact wp_pure ⟨by simp, by simp⟩
  · refine wp_ite (fun _ => wp_pure ⟨by simp, by simp⟩) fun _ => ?_
    simp only [he]
    exact wp_pure ⟨by simp, by simp⟩

/-- The normal form of zero is zero, and that of Undefined is Undefined. -/
theorem normal_zu {cfg : Cfg D} (hcfg : cfg.Ok) (n : Nat) {e : Expr D} (h : ZU e) :
    wp C ((eng cfg n).normal e) fun r => ZU r ∧ (e = .undef → r = .undef) := by
  cases n with
  | zero => exact wp_err
  | succ n =>
    refine wp_bind (P := fun p => p.1.1.num = e ∧ p.1.1.denom = one ∧ p.1.2.entries = [])
      (wp_capture ?_) ?_
    · intro a cs ha
      cases n with
      | zero => cases ha
      | succ n =>
        rcases h with rfl | rfl <;> cases ha
        · exact ⟨rfl, rfl, rfl⟩
        · exact ⟨rfl, rfl, rfl⟩
    · rintro ⟨⟨⟨num, denom⟩, entries, used⟩, cs⟩ ⟨h1, h2, h3⟩
      simp only at h1 h2 h3
      subst h1 h2 h3
      have h1' : num = .undef ∨ isEqual num num = true := by
        rcases h with rfl | rfl
        · exact .inr rfl
        · exact .inl rfl
      refine wp_bind (P := fun q => q.1 = num) (wp_capture fun a cs ha =>
        replaceBack_empty hcfg n h1' a cs ha (C := fun _ => True) fun _ _ => trivial) fun q hq => ?_
      refine wp_bind (P := fun _ => True) wp_true fun q' _ => ?_
      refine wp_bind (P := fun _ => True) wp_true fun _ _ => ?_
      unfold evalFrac
      refine wp_bind (P := fun _ => True) wp_true fun o _ => ?_
      refine wp_and (prodCreate_zu cfg n (z := q.1) (by simp) (hq ▸ h)) ?_
      refine wp_imp fun hu => prodCreate_undef cfg n ?_
      simp [hq, hu]

/-- C13, the induction. -/
theorem diff_zu {cfg : Cfg D} (hcfg : cfg.Ok) (n : Nat) {x : Sym} {a : Expr D}
    (h : Within (fun s => s ≠ x) a) : wp C ((eng cfg n).diff (.sym x) a) ZU := by
  induction n generalizing a with
  | zero => exact wp_err
  | succ n ih =>
    have hS := syms_eng hcfg n
    have trig : ∀ (a : Expr D) (i : M D (Expr D)), Within (fun s => s ≠ x) a →
        wp C (diffTrig (eng cfg n) (.sym x) a i) ZU := fun a i ha => by
      refine wp_bind (ih ha) fun d hd => wp_bind wp_true fun i _ => ?_
      exact wp_bind (prodCreate_zu cfg n (z := d) (by simp) hd) fun p hp =>
        wp_mono (normal_zu hcfg n hp) fun _ h => h.1
    cases a with
    | num m => exact wp_pure (.inl rfl)
    | sym s =>
      have : isEqual (.sym s : Expr D) (.sym x) = false := by
        simp at h
        simp [isEqual, h]
      simp only [eng, engStep, diff, this]
      exact wp_pure (.inl rfl)
    | cst c => exact wp_pure (.inl rfl)
    | undef => exact wp_pure (.inr rfl)
    | sum l =>
      rw [within_sum] at h
      refine wp_bind (wp_mapL (R := fun _ r => ZU r) fun a ha => ih (h a ha)) fun r hr => ?_
      refine sumCreate_zu cfg n fun y hy => ?_
      clear h
      induction hr with
      | nil => simp at hy
      | cons hz _ ih' =>
        rcases List.mem_cons.1 hy with rfl | hy
        · exact hz
        · exact ih' hy
    | prod l =>
      rw [within_prod] at h
      have key : ∀ (l b : List (Expr D)), (∀ a ∈ l, Within (fun s => s ≠ x) a) →
          wp C (diffProd (eng cfg n) (.sym x) b l) fun r => ∀ y ∈ r, ZU y := by
        intro l
        induction l with
        | nil => exact fun b _ => wp_pure (by simp)
        | cons a l ihl =>
          intro b hl
          refine wp_bind (ih (hl a (by simp))) fun d hd => ?_
          refine wp_bind (prodCreate_zu cfg n (z := d) (by simp) hd) fun p hp => ?_
          refine wp_bind (ihl _ fun a ha => hl a (by simp [ha])) fun r hr => wp_pure ?_
          simpa using ⟨hp, hr⟩
      exact wp_bind (key l [] h) fun r hr => sumCreate_zu cfg n hr
    | pow b e =>
      rw [within_pow] at h
      refine wp_bind wp_true fun lg _ => wp_bind (ih h.2) fun de hde => ?_
      refine wp_bind (prodCreate_zu cfg n (z := de) (by simp) hde) fun s1 hs1 => ?_
      refine wp_bind wp_true fun o _ => wp_bind (ih h.1) fun db hdb => ?_
      refine wp_bind (prodCreate_zu cfg n (z := db) (by simp) hdb) fun s2 hs2 => ?_
      refine wp_bind (sumCreate_zu cfg n (by simpa using ⟨hs1, hs2⟩)) fun s hs => ?_
      exact prodCreate_zu cfg n (z := s) (by simp) hs
    | fn f a =>
      rw [within_fn] at h
      cases f with
      | log =>
        refine wp_bind wp_true fun o _ => wp_bind (ih h) fun d hd => ?_
        exact prodCreate_zu cfg n (z := d) (by simp) hd
      | _ => exact trig _ _ h
    | atan2 y z =>
      rw [within_atan2] at h
      refine wp_bind (P := Within fun s => s ≠ x) ?_ fun q hq => trig _ _ hq
      refine wp_of_true (wp_bind (hS.pow h.2 within_mOne) fun o ho => hS.prod ?_)
      simpa using ⟨h.1, ho⟩

end Tsym
