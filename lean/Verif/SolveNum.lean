import Verif.SolveEngThm
import Verif.NormalPoly
import Verif.GcdAlgo
import Verif.Props.Undef
import Verif.Mono

/-!
# Helper lemmas: linear systems with rational entries

With rational numbers and Undefined as entries, a run of the solver with the operators of the library
gives the result of the generic solver over the rational numbers with an undefined element.
-/

set_option autoImplicit false
set_option linter.unusedSectionVars false
set_option linter.unusedSimpArgs false
set_option linter.unusedVariables false

namespace Tsym.LinE

open Expr

variable {D : Type} [Flt D] {cfg : Cfg D}

/-! ## Depth -/

section mono

open Lean.Order

variable {γ : Type} [Lean.Order.PartialOrder γ]

@[partial_fixpoint_monotone]
theorem loop_mono {α : Type} (lo hi : ℕ) (f : γ → ℕ → α → M D α) (s : α) (h : monotone f) :
    monotone fun x => loop lo hi (f x) s := by
  unfold loop
  generalize hi - lo = n
  induction n generalizing lo s with
  | zero => unfold loop.go; repeat' monotonicity
  | succ n ih =>
    unfold loop.go
    apply monotone_bind
    · exact monotone_apply s _ (monotone_apply lo f h)
    · apply monotone_of_monotone_apply
      intro t
      exact ih (lo + 1) t

@[partial_fixpoint_monotone]
theorem loopDown_mono {α : Type} (f : γ → ℕ → α → M D α) (n : ℕ) (s : α) (h : monotone f) :
    monotone fun x => loopDown (f x) n s := by
  induction n generalizing s with
  | zero => unfold loopDown; repeat' monotonicity
  | succ n ih =>
    unfold loopDown
    apply monotone_bind
    · exact monotone_apply s _ (monotone_apply n f h)
    · apply monotone_of_monotone_apply
      intro t
      exact ih t

end mono

section

open Lean.Order

monotone_def elimRow (a0 a1 a2 a3) : fun E : Eng D => elimRow E a0 a1 a2 a3
monotone_def elimCol (a0 a1 a2 a3) : fun E : Eng D => elimCol E a0 a1 a2 a3 := by unfold elimCol; repeat' mono_step
monotone_def eliminateGauss (a0 a1 a2 a3) : fun E : Eng D => eliminateGauss E a0 a1 a2 a3 := by unfold eliminateGauss; repeat' mono_step
monotone_def subMul (a0 a1 a2 a3) : fun E : Eng D => subMul E a0 a1 a2 a3
monotone_def forward (a0 a1 a2) : fun E : Eng D => forward E a0 a1 a2
monotone_def backStep (a0 a1 a2 a3 a4) : fun E : Eng D => backStep E a0 a1 a2 a3 a4
monotone_def computeSolution (a0 a1 a2 a3) : fun E : Eng D => computeSolution E a0 a1 a2 a3 := by unfold computeSolution; repeat' mono_step
monotone_def detailSolve (a0 a1 a2 a3) : fun E : Eng D => detailSolve E a0 a1 a2 a3
monotone_def detFromPlu (a0 a1 a2) : fun E : Eng D => detFromPlu E a0 a1 a2
monotone_def detailDeterminant (a0 a1 a2) : fun E : Eng D => detailDeterminant E a0 a1 a2
monotone_def invertColumn (a0 a1 a2 a3 a4) : fun E : Eng D => invertColumn E a0 a1 a2 a3 a4
monotone_def detailInvert (a0 a1 a2) : fun E : Eng D => detailInvert E a0 a1 a2 := by unfold detailInvert; repeat' mono_step
monotone_def solve (a0 a1 a2 a3 a4 a5) : fun E : Eng D => solve E a0 a1 a2 a3 a4 a5
monotone_def determinant (a0 a1 a2 a3) : fun E : Eng D => determinant E a0 a1 a2 a3
monotone_def invert (a0 a1 a2 a3) : fun E : Eng D => invert E a0 a1 a2 a3

end

/-- Result without the recorded conditions. -/
def res {α : Type} : M D α → Except Err α
  | .ok (a, _) => .ok a
  | .error e => .error e

/-- With enough depth the result of `f` is `o`. -/
def Out (cfg : Cfg D) {α : Type} (f : Eng D → M D α) (o : Except Err α) : Prop :=
  ∃ N, ∀ n, N ≤ n → res (f (eng cfg n)) = o

theorem Out.of_tot {α : Type} {f : Eng D → M D α} {a : α} (h : Tot cfg f a) : Out cfg f (.ok a) := by
  obtain ⟨N, h⟩ := h
  exact ⟨N, fun n hn => by rw [h n hn]; rfl⟩

theorem out_pure {α : Type} (a : α) : Out cfg (fun _ => pure a) (.ok a) := ⟨0, fun _ _ => rfl⟩

theorem out_lift {α : Type} (o : Except Err α) : Out cfg (fun _ => M.lift o) o := ⟨0, fun _ _ => by cases o <;> rfl⟩

theorem out_log (c : Cond D) : Out cfg (fun _ => M.log c) (.ok ()) := ⟨0, fun _ _ => rfl⟩

theorem res_bind {α β : Type} (m : M D α) (g : α → M D β) : res (m >>= g) = res m >>= fun a => res (g a) := by
  rcases m with e | ⟨a, cs⟩
  · rfl
  · change res (M.bind _ _) = res (g a)
    simp only [M.bind]
    rcases g a with e | ⟨b, ds⟩ <;> rfl

theorem out_bind {α β : Type} {f : Eng D → M D α} {g : Eng D → α → M D β} {o : Except Err α} {o' : α → Except Err β}
    (hf : Out cfg f o) (hg : ∀ a, o = .ok a → Out cfg (fun E => g E a) (o' a)) : Out cfg (fun E => f E >>= g E) (o >>= o') := by
  obtain ⟨N, hN⟩ := hf
  rcases o with e | a
  · exact ⟨N, fun n hn => by rw [res_bind, hN n hn]; rfl⟩
  · obtain ⟨K, hK⟩ := hg a rfl
    exact ⟨max N K, fun n hn => by rw [res_bind, hN n (by omega)]; exact hK n (by omega)⟩

theorem out_bind_ok {α β : Type} {f : Eng D → M D α} {g : Eng D → α → M D β} {a : α} {o : Except Err β}
    (hf : Out cfg f (.ok a)) (hg : Out cfg (fun E => g E a) o) : Out cfg (fun E => f E >>= g E) o :=
  out_bind (o' := fun _ => o) hf fun b hb => by cases hb; exact hg

theorem Out.congr {α : Type} {f : Eng D → M D α} {o o' : Except Err α} (h : Out cfg f o) (e : o = o') : Out cfg f o' := e ▸ h

/-! ## Numbers -/

/-- Rational numbers and Undefined. -/
def rep : Option ℚ → Expr D
  | none => .undef
  | some q => .num (.rat q)

/-- Complexity of the expression. -/
def comp (D : Type) [Flt D] (v : Option ℚ) : ℕ := Api.complexity (rep v : Expr D)

theorem comp_lt (v : Option ℚ) : comp D v < Lin.unsignedMax := by
  unfold comp Api.complexity Lin.unsignedMax
  rcases v with _ | q
  · simp [rep, Expr.complexity]
  · simp only [rep, Expr.complexity]
    refine lt_of_le_of_lt (Nat.mod_le _ _) ?_
    split <;> (try split) <;> omega

variable [LawfulFlt D] (hc : cfg.Ok) (hp : cfg.maxPrime < 324)

/-- The scalars of the generic solver. -/
abbrev sc (D : Type) [Flt D] : Scalar (Option ℚ) := Lin.exactScalar (comp D)

theorem isZero_rep (v : Option ℚ) : isZero (rep v : Expr D) = (sc D).isZero v := by
  rcases v with _ | q
  · simp [isZero, rep, isEqual, Lin.exactScalar, zero_eq]
  · rw [isZero, rep, zero_eq]
    have := isEqual_ep (EP.num (D := D) q) (EP.num 0)
    by_cases h : q = 0
    · subst h
      simp [Lin.exactScalar, this.2 rfl]
    · have h2 : isEqual (.num (.rat q) : Expr D) (.num (.rat 0)) = false := by
        rw [Bool.eq_false_iff]; intro h'; have := this.1 h'
        simp at this; exact h this
      rw [h2]; simp [Lin.exactScalar, h]

theorem out_undef_sum {l : List (Expr D)} (h : .undef ∈ l) : Tot cfg (fun E => E.sumCreate l) .undef :=
  ⟨1, fun n hn => by obtain ⟨m, rfl⟩ : ∃ m, n = m + 1 := ⟨n - 1, by omega⟩; exact sum_undef h⟩

theorem out_undef_prod {l : List (Expr D)} (h : .undef ∈ l) : Tot cfg (fun E => E.prodCreate l) .undef :=
  ⟨1, fun n hn => by obtain ⟨m, rfl⟩ : ∃ m, n = m + 1 := ⟨n - 1, by omega⟩; exact prod_undef h⟩

include hc

theorem tot_add (a b : Option ℚ) : Tot cfg (fun E => Api.add E (rep a) (rep b)) (rep ((sc D).add a b)) := by
  unfold Api.add
  rcases a with _ | a
  · exact out_undef_sum (by simp [rep])
  · rcases b with _ | b
    · exact out_undef_sum (by simp [rep])
    · exact tot_sum_num a b

theorem tot_mul (a b : Option ℚ) : Tot cfg (fun E => Api.mul E (rep a) (rep b)) (rep ((sc D).mul a b)) := by
  unfold Api.mul
  rcases a with _ | a
  · exact out_undef_prod (by simp [rep])
  · rcases b with _ | b
    · exact out_undef_prod (by simp [rep])
    · exact tot_prod_nums hc a b

theorem tot_sub (a b : Option ℚ) : Tot cfg (fun E => Api.sub E (rep a) (rep b)) (rep ((sc D).sub a b)) := by
  unfold Api.sub Eng.minus
  have h1 : Tot cfg (fun E => E.prodCreate [mOne, rep b]) (rep ((sc D).mul (some (-1)) b) : Expr D) := by
    have := tot_mul hc (some (-1)) b
    unfold Api.mul rep at this
    rw [mOne_rat]
    exact this
  refine tot_bind h1 ?_
  have := tot_add hc a ((sc D).mul (some (-1)) b)
  have e : (sc D).add a ((sc D).mul (some (-1)) b) = (sc D).sub a b := by
    rcases a with _ | a
    · rfl
    · rcases b with _ | b
      · rfl
      · simp [Lin.exactScalar, sub_eq_add_neg]
  rw [e] at this
  exact this

theorem tot_simplify (v : Option ℚ) (hp : cfg.maxPrime < 324) : Tot cfg (fun E => Api.simplify E (rep v)) (rep v) := by
  unfold Api.simplify
  rcases v with _ | q
  · refine tot_bind (a := .undef) (tot_expand ?_) (tot_bind (a := .undef) ?_ ?_)
    · simp only [rep, expand]; exact tot_pure _
    · exact ⟨3, fun n hn => by obtain ⟨m, rfl⟩ : ∃ m, n = m + 3 := ⟨n - 3, by omega⟩; exact normal_undef hc⟩
    · exact tot_pure _
  · have hx : Tot cfg (fun E => E.expand (rep (some q))) (rep (some q) : Expr D) := tot_expand (tot_expand_ep hc (EP.num q))
    have hn : Tot cfg (fun E => E.normal (rep (some q))) (rep (some q) : Expr D) := by
      have hd : ((q.den : ℤ)) ≠ 0 := by exact_mod_cast q.den_ne_zero
      refine tot_normal hc (EP.num q) (EP.int q.num) hd (.inl hp) ?_ fun m => tot_normalFrac_num q m
      rw [rep, poly_ratE, poly_int, ← map_mul]
      congr 1
      push_cast
      exact Rat.mul_den_eq_num q
    change Tot cfg (fun E => E.expand (rep (some q)) >>= fun expanded => E.normal (rep (some q)) >>= fun next => if isUndefined next then pure next
      else (Api.normalLoop E (rep (some q)) next >>= fun n => E.expand n >>= fun en => pure (Api.simplest expanded en n))) (rep (some q))
    refine tot_bind hx (tot_bind hn ?_)
    have hu : isUndefined (rep (some q) : Expr D) = false := rfl
    simp only [hu, Bool.false_eq_true, if_false]
    have hl : Tot cfg (fun E => Api.normalLoop E (rep (some q)) (rep (some q))) (rep (some q) : Expr D) := by
      unfold Api.normalLoop
      refine tot_loop (.done _ ?_)
      simp only [rep, (isEqual_ep (EP.num q) (EP.num q)).2 rfl, if_true]
      exact tot_pure _
    refine tot_bind hl (tot_bind hx ?_)
    simp only [Api.simplest, lt_irrefl, if_false]
    exact tot_pure _

theorem tot_div (a b : Option ℚ) (hp : cfg.maxPrime < 324) : Tot cfg (fun E => Api.div E (rep a) (rep b)) (rep ((sc D).div a b)) := by
  unfold Api.div
  rcases b with _ | b
  · have h1 : Tot cfg (fun E => E.oneOver (rep none)) (.undef : Expr D) :=
      ⟨1, fun n hn => by obtain ⟨m, rfl⟩ : ∃ m, n = m + 1 := ⟨n - 1, by omega⟩; exact pow_undef (.inl rfl)⟩
    refine tot_bind h1 ?_
    have : (sc D).div a none = none := by rcases a with _ | a <;> rfl
    rw [this]
    exact out_undef_prod (by simp)
  · by_cases hb : b = 0
    · subst hb
      have : (sc D).div a (some 0) = none := by rcases a with _ | a <;> simp [Lin.exactScalar]
      rw [this]
      refine ⟨2, fun n hn => ?_⟩
      obtain ⟨m, rfl⟩ : ∃ m, n = m + 2 := ⟨n - 2, by omega⟩
      have h0 : (rep (some 0) : Expr D) = int 0 := by simp [rep, int]
      rw [h0]
      exact C03_division_by_zero cfg m (rep a) (by rw [LawfulFlt.lt, LawfulFlt.ofRat, LawfulFlt.ofRat]; norm_num)
    · have h1 : Tot cfg (fun E => E.oneOver (rep (some b))) (rep (some b⁻¹) : Expr D) := by
        have h := tot_powNum hc (D := D) (cfg := cfg) (q := b) (n := -1) (.inl hb) (by simp; decide) (fun _ => .inl hp)
        rw [zpow_neg_one] at h
        exact tot_pow h
      refine tot_bind h1 ?_
      have := tot_mul hc a (some b⁻¹)
      have e : (sc D).mul a (some b⁻¹) = (sc D).div a (some b) := by
        rcases a with _ | a
        · rfl
        · simp [Lin.exactScalar, hb, div_eq_mul_inv]
      rw [e] at this
      exact this

/-! ## The parts of the solver -/

omit hc

theorem out_loop {α β : Type} (φ : β → α) {f : Eng D → ℕ → α → M D α} {g : ℕ → β → β} (lo hi : ℕ)
    (h : ∀ i t, Out cfg (fun E => f E i (φ t)) (.ok (φ (g i t)))) (t : β) :
    Out cfg (fun E => loop lo hi (f E) (φ t)) (.ok (φ (Lin.loop lo hi g t))) := by
  suffices ∀ n lo t, hi - lo = n → Out cfg (fun E => loop.go (f E) n lo (φ t)) (.ok (φ (Lin.loop lo hi g t))) from
    this (hi - lo) lo t rfl
  intro n
  induction n with
  | zero => intro lo t h; rw [Lin.loop_of_le (by omega)]; exact out_pure _
  | succ n ih =>
    intro lo t hn
    rw [lin_loop_front (by omega)]
    exact out_bind_ok (h lo t) (ih (lo + 1) _ (by omega))

theorem out_bind_map {α β α' β' : Type} {f : Eng D → M D α} {g : Eng D → α → M D β} {φ : α' → α} {ψ : β' → β}
    {x : Except Err α'} {y : α' → Except Err β'} (hf : Out cfg f (x.map φ))
    (hg : ∀ a, x = .ok a → Out cfg (fun E => g E (φ a)) ((y a).map ψ)) : Out cfg (fun E => f E >>= g E) ((x >>= y).map ψ) := by
  rcases x with e | a
  · obtain ⟨N, hN⟩ := hf
    exact ⟨N, fun n hn => by rw [res_bind, hN n hn]; rfl⟩
  · exact out_bind_ok hf (hg a rfl)

theorem out_loopM {α β : Type} (φ : β → α) {f : Eng D → ℕ → α → M D α} {g : ℕ → β → Except Err β} (lo hi : ℕ)
    (h : ∀ i t, Out cfg (fun E => f E i (φ t)) ((g i t).map φ)) (t : β) :
    Out cfg (fun E => loop lo hi (f E) (φ t)) ((Lin.loopM lo hi g t).map φ) := by
  suffices ∀ n lo t, hi - lo = n → Out cfg (fun E => loop.go (f E) n lo (φ t)) ((Lin.loopM lo hi g t).map φ) from
    this (hi - lo) lo t rfl
  intro n
  induction n with
  | zero => intro lo t h; rw [Lin.loopM_of_le (by omega)]; exact out_pure _
  | succ n ih =>
    intro lo t hn
    rw [Lin.loopM_front (by omega)]
    exact out_bind_map (h lo t) fun a _ => ih (lo + 1) a (by omega)

theorem out_loopDown {α β : Type} (φ : β → α) {f : Eng D → ℕ → α → M D α} {g : ℕ → β → Except Err β}
    (h : ∀ i t, Out cfg (fun E => f E i (φ t)) ((g i t).map φ)) (n : ℕ) (t : β) :
    Out cfg (fun E => loopDown (f E) n (φ t)) ((Lin.loopDownM g n t).map φ) := by
  induction n generalizing t with
  | zero => exact out_pure _
  | succ n ih => exact out_bind_map (h n t) fun a _ => ih a

theorem lin_loop_map {α β : Type} (φ : β → α) {f : ℕ → α → α} {g : ℕ → β → β} (lo hi : ℕ)
    (h : ∀ i t, f i (φ t) = φ (g i t)) (t : β) : Lin.loop lo hi f (φ t) = φ (Lin.loop lo hi g t) := by
  unfold Lin.loop
  generalize List.range' lo (hi - lo) = l
  induction l generalizing t with
  | nil => rfl
  | cons i l ih => rw [List.foldl_cons, List.foldl_cons, h, ih]

/-- Matrix of expressions. -/
def repM (A : ℕ → ℕ → Option ℚ) : ℕ → ℕ → Expr D := fun i k => rep (A i k)

/-- Vector of expressions. -/
def repV (b : ℕ → Option ℚ) : ℕ → Expr D := fun i => rep (b i)

/-- State of expressions. -/
def repS (s : Lin.St (Option ℚ)) : Lin.St (Expr D) := ⟨repM s.M, repV s.b, s.swaps⟩

theorem set_rep (A : ℕ → ℕ → Option ℚ) (i k : ℕ) (v : Option ℚ) :
    Lin.set (repM A : ℕ → ℕ → Expr D) i k (rep v) = repM (Lin.set A i k v) := by
  funext a b
  simp only [Lin.set, repM]
  split <;> rfl

theorem set1_rep (x : ℕ → Option ℚ) (i : ℕ) (v : Option ℚ) :
    Lin.set1 (repV x : ℕ → Expr D) i (rep v) = repV (Lin.set1 x i v) := by
  funext a
  simp only [Lin.set1, repV]
  split <;> rfl

theorem swapRows_rep (dim : ℕ) (A : ℕ → ℕ → Option ℚ) (f t : ℕ) :
    Lin.swapRows dim (repM A : ℕ → ℕ → Expr D) f t = repM (Lin.swapRows dim A f t) := by
  unfold Lin.swapRows
  refine lin_loop_map repM 0 dim (fun j A => ?_) A
  show Lin.set (Lin.set (repM A) f j (rep (A t j))) t j (rep (A f j)) = _
  rw [set_rep, set_rep]

theorem swapScalar_rep (b : ℕ → Option ℚ) (f t : ℕ) : Lin.swapScalar (repV b : ℕ → Expr D) f t = repV (Lin.swapScalar b f t) := by
  unfold Lin.swapScalar
  show Lin.set1 (Lin.set1 (repV b) f (rep (b t))) t (rep (b f)) = _
  rw [set1_rep, set1_rep]

theorem pivot_rep (algo : Lin.Algo) (dim : ℕ) (A : ℕ → ℕ → Option ℚ) (row : ℕ) :
    pivot algo dim (repM A : ℕ → ℕ → Expr D) row = Lin.pivot (sc D) algo dim A row := by
  cases algo with
  | gauss =>
    show firstNonZeroFrom _ _ _ _ = Lin.firstNonZeroFrom _ _ _ _ _
    suffices ∀ n i, firstNonZeroFrom (repM A : ℕ → ℕ → Expr D) row n i = Lin.firstNonZeroFrom (sc D) A row n i from this _ _
    intro n
    induction n with
    | zero => intro i; rfl
    | succ n ih => intro i; simp only [firstNonZeroFrom, Lin.firstNonZeroFrom, ih, repM, isZero_rep]
  | gaussLCPivot =>
    show Except.ok (leastComplexityPivot _ _ _) = Except.ok (Lin.leastComplexityPivot _ _ _ _)
    unfold leastComplexityPivot Lin.leastComplexityPivot
    simp only [repM, isZero_rep]
    rfl

section

variable (hc : cfg.Ok) (hp : cfg.maxPrime < 324)
include hc hp

theorem elimRow_rep (dim j i : ℕ) (A : ℕ → ℕ → Option ℚ) :
    Out cfg (fun E => elimRow E dim j i (repM A)) (.ok (repM (Lin.elimRow (sc D) dim j i A))) := by
  unfold elimRow
  refine out_bind_ok (.of_tot (tot_div hc (A i j) (A j j) hp)) (out_bind_ok (out_log _) (out_bind_ok (.of_tot (tot_simplify hc _ hp)) ?_))
  rw [set_rep]
  unfold Lin.elimRow
  refine out_loop (D := D) repM (j + 1) dim (fun k A => ?_) _
  refine out_bind_ok (.of_tot (tot_mul hc (A i j) (A j k))) (out_bind_ok (.of_tot (tot_sub hc (A i k) _)) (out_bind_ok (.of_tot (tot_simplify hc _ hp)) ?_))
  rw [set_rep]
  exact out_pure _

theorem elimCol_rep (algo : Lin.Algo) (dim j : ℕ) (s : Lin.St (Option ℚ)) :
    Out cfg (fun E => elimCol E algo dim j (repS s)) ((Lin.elimCol (sc D) algo dim j s).map repS) := by
  unfold elimCol Lin.elimCol
  refine out_bind_map (φ := id) ((out_lift _).congr ?_) fun p hpp => ?_
  · show pivot algo dim (repM s.M) j = _
    rw [pivot_rep]
    cases Lin.pivot (sc D) algo dim s.M j <;> rfl
  · have : (if id p = j then (repS s : Lin.St (Expr D)) else ⟨Lin.swapRows dim (repS s).M j (id p), Lin.swapScalar (repS s).b j (id p), (repS s : Lin.St (Expr D)).swaps + 1⟩) =
        repS (if p = j then s else ⟨Lin.swapRows dim s.M j p, Lin.swapScalar s.b j p, s.swaps + 1⟩) := by
      show (if p = j then _ else _) = _
      split
      · rfl
      · show Lin.St.mk (Lin.swapRows dim (repM s.M) j p) (Lin.swapScalar (repV s.b) j p) _ = _
        rw [swapRows_rep, swapScalar_rep]
        rfl
    simp only [this]
    refine out_bind_ok (out_loop (D := D) repM (j + 1) dim (fun i A => elimRow_rep hc hp dim j i A) _) ?_
    exact out_pure _

theorem eliminateGauss_rep (algo : Lin.Algo) (dim : ℕ) (A : ℕ → ℕ → Option ℚ) (b : ℕ → Option ℚ) :
    Out cfg (fun E => eliminateGauss E algo dim (repM A) (repV b)) ((Lin.eliminateGauss (sc D) algo dim A b).map repS) :=
  out_loopM (D := D) repS 0 (dim - 1) (fun j s => elimCol_rep hc hp algo dim j s) ⟨A, b, 0⟩

theorem subMul_rep (A : ℕ → ℕ → Option ℚ) (i j : ℕ) (x : ℕ → Option ℚ) :
    Out cfg (fun E => subMul E (repM A) i j (repV x)) (.ok (repV (Lin.set1 x i ((sc D).sub (x i) ((sc D).mul (A i j) (x j)))))) := by
  unfold subMul
  refine out_bind_ok (.of_tot (tot_mul hc (A i j) (x j))) (out_bind_ok (.of_tot (tot_sub hc (x i) _)) ?_)
  rw [set1_rep]
  exact out_pure _

theorem forward_rep (dim : ℕ) (A : ℕ → ℕ → Option ℚ) (b : ℕ → Option ℚ) :
    Out cfg (fun E => forward E dim (repM A) (repV b)) (.ok (repV (Lin.forward (sc D) dim A b))) :=
  out_loop (D := D) repV 0 dim (fun i b => out_loop (D := D) repV 0 i (fun j b => subMul_rep hc hp A i j b) b) b

theorem backStep_rep (dim : ℕ) (A : ℕ → ℕ → Option ℚ) (b : ℕ → Option ℚ) (i : ℕ) (x : ℕ → Option ℚ) :
    Out cfg (fun E => backStep E dim (repM A) (repV b) i (repV x)) ((Lin.backStep (sc D) dim A b i x).map repV) := by
  unfold backStep Lin.backStep
  refine out_bind_ok (out_loop (D := D) repV (i + 1) dim (fun j b => subMul_rep hc hp A i j b) x) ?_
  refine out_bind_ok (.of_tot (tot_simplify hc (A i i) hp)) ?_
  simp only [isZero_rep]
  have hs : (sc D).simplify (A i i) = A i i := rfl
  rw [hs]
  cases hz : (sc D).isZero (A i i) with
  | true => exact ⟨0, fun _ _ => rfl⟩
  | false =>
    refine out_bind_ok (.of_tot (tot_add hc (b i) _)) (out_bind_ok (.of_tot (tot_div hc _ (A i i) hp)) (out_bind_ok (out_log _)
      (out_bind_ok (.of_tot (tot_simplify hc _ hp)) ?_)))
    rw [set1_rep]
    exact out_pure _

theorem computeSolution_rep (dim : ℕ) (A : ℕ → ℕ → Option ℚ) (b x : ℕ → Option ℚ) :
    Out cfg (fun E => computeSolution E dim (repM A) (repV b) (repV x)) ((Lin.computeSolution (sc D) dim A b x).map repV) := by
  unfold computeSolution Lin.computeSolution
  refine out_bind_ok (forward_rep hc hp dim A b) ?_
  have : Lin.loop 0 dim (fun i x => Lin.set1 x i zero) (repV x : ℕ → Expr D) = repV (Lin.loop 0 dim (fun i x => Lin.set1 x i (sc D).zero) x) :=
    lin_loop_map repV 0 dim (fun i t => by rw [zero_eq]; exact set1_rep t i (some 0)) x
  rw [this]
  exact out_loopDown (D := D) repV (fun i x => backStep_rep hc hp dim A _ i x) dim _

theorem mat_rep (l : List (Option ℚ)) (dim : ℕ) : mat (l.map rep : List (Expr D)) dim = repM (Lin.mat (sc D) l dim) := by
  funext i j
  simp only [mat, repM, Lin.mat, List.getElem?_map]
  rcases l[i * dim + j]? with _ | v
  · exact zero_eq
  · rfl

theorem vec_rep (l : List (Option ℚ)) : vec (l.map rep : List (Expr D)) = repV (Lin.vec (sc D) l) := by
  funext i
  simp only [vec, repV, Lin.vec, List.getElem?_map]
  rcases l[i]? with _ | v
  · exact zero_eq
  · rfl

theorem zero_rep : (fun _ => zero : ℕ → Expr D) = repV (fun _ => (sc D).zero) := by
  funext i; exact zero_eq

theorem detailSolve_rep (A b : List (Option ℚ)) (dim : ℕ) (algo : Lin.Algo) :
    Out cfg (fun E => detailSolve E (A.map rep) (b.map rep) dim algo) ((Lin.detailSolve (sc D) A b dim algo).map (List.map rep)) := by
  unfold detailSolve Lin.detailSolve
  rw [mat_rep hc hp, vec_rep hc hp, zero_rep hc hp]
  refine out_bind_map (eliminateGauss_rep hc hp algo dim _ _) fun s _ => ?_
  refine out_bind_map (computeSolution_rep hc hp dim s.M s.b _) fun x _ => ?_
  refine (out_pure _).congr ?_
  show _ = Except.ok _
  rw [List.map_map]
  rfl

theorem detFromPlu_rep (dim : ℕ) (A : ℕ → ℕ → Option ℚ) (swaps : ℕ) :
    Out cfg (fun E => detFromPlu E dim (repM A) swaps) (.ok (rep (Lin.detFromPlu (sc D) dim A swaps))) := by
  unfold detFromPlu Lin.detFromPlu
  have h1 : (if swaps % 2 = 0 then one else mOne : Expr D) = rep (if swaps % 2 = 0 then (sc D).one else (sc D).minusOne) := by
    split
    · exact one_eq
    · exact mOne_rat
  rw [h1]
  exact out_bind_ok (out_loop (D := D) rep 0 dim (fun i d => .of_tot (tot_mul hc d (A i i))) _) (.of_tot (tot_simplify hc _ hp))

theorem detailDeterminant_rep (A : List (Option ℚ)) (dim : ℕ) (algo : Lin.Algo) :
    Out cfg (fun E => detailDeterminant E (A.map rep) dim algo) ((Lin.detailDeterminant (sc D) A dim algo).map rep) := by
  unfold detailDeterminant Lin.detailDeterminant
  rw [mat_rep hc hp, zero_rep hc hp]
  refine out_bind_map (eliminateGauss_rep hc hp algo dim _ _) fun s _ => ?_
  exact detFromPlu_rep hc hp dim s.M s.swaps

theorem detailInvert_rep (A : List (Option ℚ)) (dim : ℕ) (algo : Lin.Algo) :
    Out cfg (fun E => detailInvert E (A.map rep) dim algo) ((Lin.detailInvert (sc D) A dim algo).map (List.map rep)) := by
  unfold detailInvert Lin.detailInvert
  have hz : (fun _ _ => zero : ℕ → ℕ → Expr D) = repM (fun _ _ => (sc D).zero) := by funext i k; exact zero_eq
  rw [hz]
  refine out_bind_map (φ := repM) (out_loopM (D := D) repM 0 dim (fun i inv => ?_) _) fun inv _ => ?_
  · unfold invertColumn Lin.invertColumn
    have h1 : (fun j => if i = j then one else zero : ℕ → Expr D) = repV (fun j => if i = j then (sc D).one else (sc D).zero) := by
      funext j
      simp only [repV]
      split
      · exact one_eq
      · exact zero_eq
    simp only [mat_rep hc hp, h1, zero_rep hc hp]
    refine out_bind_map (eliminateGauss_rep hc hp algo dim _ _) fun s _ => ?_
    refine out_bind_map (computeSolution_rep hc hp dim s.M s.b _) fun x _ => ?_
    refine (out_pure _).congr ?_
    show _ = Except.ok _
    congr 1
    exact lin_loop_map repM 0 dim (fun r inv => set_rep inv r i (x r)) inv
  · refine (out_pure _).congr ?_
    show _ = Except.ok _
    rw [List.map_flatMap]
    simp only [List.map_map]
    rfl

end

end Tsym.LinE
