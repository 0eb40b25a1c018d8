import Verif.SolveEng
import Verif.SolveApi
import Verif.SoundApi

/-!
# Helper lemmas: linear systems over expressions

A run of the solver that returns is compared with a run of the generic solver whose scalars are
computations.
-/

set_option autoImplicit false
set_option linter.unusedSectionVars false

namespace Tsym.LinE

open Expr

variable {D : Type} [Flt D]

/-- Scalars that are computations: operations run their operands first. -/
def scal (E : Eng D) : Scalar (M D (Expr D)) where
  zero := pure zero
  one := pure one
  minusOne := pure mOne
  add a b := do let x ← a; let y ← b; Api.add E x y
  sub a b := do let x ← a; let y ← b; Api.sub E x y
  mul a b := do let x ← a; let y ← b; Api.mul E x y
  div a b := do let x ← a; let y ← b; Api.div E x y
  simplify a := do let x ← a; Api.simplify E x
  isZero a := match a with
    | .ok (e, _) => isZero e
    | .error _ => false
  complexity a := match a with
    | .ok (e, _) => Api.complexity e
    | .error _ => 0

section values

variable [LawfulFlt D] {cfg : Cfg D} {σ : Asg}

theorem scal_sound (hcfg : cfg.Ok) (n : ℕ) (hσ : σ.Respects) : Lin.Sound (scal (eng cfg n)) (Vl σ) where
  zero := wp_pure (by simp)
  one := wp_pure (by simp)
  minusOne := wp_pure (by simp)
  add ha hb := wp_bind ha fun x hx => wp_bind hb fun y hy => (sound_eng hcfg n).sum hσ (denSum_two hx hy)
  sub ha hb := wp_bind ha fun x hx => wp_bind hb fun y hy => by
    rw [sub_eq_add_neg]
    exact wp_bind (minus_vl (sound_eng hcfg n) hσ hy) fun m hm => (sound_eng hcfg n).sum hσ (denSum_two hx hm)
  mul ha hb := wp_bind ha fun x hx => wp_bind hb fun y hy => (sound_eng hcfg n).prod hσ (denProd_two hx hy)
  div ha hb h0 := wp_bind ha fun x hx => wp_bind hb fun y hy => by
    rw [div_eq_mul_inv]
    exact wp_bind (oneOver_vl (sound_eng hcfg n) hσ hy h0) fun m hm => (sound_eng hcfg n).prod hσ (denProd_two hx hm)
  simplify ha := wp_bind ha fun x hx => Api.simplify_vl (sound_eng hcfg n) hσ hx

end values

/-- The expression is the result of the computation, and the conditions are among `cs`. -/
def Sim (cs : List (Cond D)) (e : Expr D) (m : M D (Expr D)) : Prop :=
  ∃ ds, m = .ok (e, ds) ∧ ds ⊆ cs

/-- The same for vectors. -/
def SimV (cs : List (Cond D)) (x : ℕ → Expr D) (y : ℕ → M D (Expr D)) : Prop := ∀ i, Sim cs (x i) (y i)

/-- The same for matrices. -/
def SimM (cs : List (Cond D)) (A : ℕ → ℕ → Expr D) (B : ℕ → ℕ → M D (Expr D)) : Prop := ∀ i k, Sim cs (A i k) (B i k)

variable {E : Eng D} {cs ds : List (Cond D)} {a b r : Expr D} {x y : M D (Expr D)}

theorem Sim.mono (h : Sim cs a x) (hs : cs ⊆ ds) : Sim ds a x := by
  obtain ⟨es, h1, h2⟩ := h; exact ⟨es, h1, List.Subset.trans h2 hs⟩

theorem Sim.pure (cs : List (Cond D)) (a : Expr D) : Sim cs a (Pure.pure a) := ⟨[], rfl, by simp⟩

theorem Sim.app {f : Expr D → M D (Expr D)} (h : Sim cs a x) (hf : f a = .ok (r, ds)) :
    Sim (cs ++ ds) r (x >>= f) := by
  obtain ⟨es, rfl, h2⟩ := h
  refine ⟨es ++ ds, M.bind_ok.2 ⟨a, es, ds, rfl, hf, rfl⟩, ?_⟩
  exact List.append_subset.2 ⟨List.Subset.trans h2 (by simp), by simp⟩

theorem Sim.app₂ {f : Expr D → Expr D → M D (Expr D)} (h : Sim cs a x) (h' : Sim cs b y) (hf : f a b = .ok (r, ds)) :
    Sim (cs ++ ds) r (do let u ← x; let v ← y; f u v) := by
  obtain ⟨es, rfl, h2⟩ := h
  obtain ⟨es', rfl, h2'⟩ := h'
  refine ⟨es ++ (es' ++ ds), M.bind_ok.2 ⟨a, es, _, rfl, M.bind_ok.2 ⟨b, es', ds, rfl, hf, rfl⟩, rfl⟩, ?_⟩
  exact List.append_subset.2 ⟨List.Subset.trans h2 (by simp), List.append_subset.2 ⟨List.Subset.trans h2' (by simp), by simp⟩⟩

theorem Sim.isZero (h : Sim cs a x) : (scal E).isZero x = LinE.isZero a := by
  obtain ⟨es, rfl, -⟩ := h; rfl

theorem Sim.complexity (h : Sim cs a x) : (scal E).complexity x = Api.complexity a := by
  obtain ⟨es, rfl, -⟩ := h; rfl

theorem SimM.set {A : ℕ → ℕ → Expr D} {B : ℕ → ℕ → M D (Expr D)} (h : SimM cs A B) (hs : Sim cs a x) (i k : ℕ) :
    SimM cs (Lin.set A i k a) (Lin.set B i k x) := by
  intro u v
  unfold Lin.set
  split
  · exact hs
  · exact h u v

theorem SimM.mono {A : ℕ → ℕ → Expr D} {B : ℕ → ℕ → M D (Expr D)} (h : SimM cs A B) (hs : cs ⊆ ds) : SimM ds A B :=
  fun i k => (h i k).mono hs

theorem SimV.set {u : ℕ → Expr D} {v : ℕ → M D (Expr D)} (h : SimV cs u v) (hs : Sim cs a x) (i : ℕ) :
    SimV cs (Lin.set1 u i a) (Lin.set1 v i x) := by
  intro k
  unfold Lin.set1
  split
  · exact hs
  · exact h k

theorem SimV.mono {u : ℕ → Expr D} {v : ℕ → M D (Expr D)} (h : SimV cs u v) (hs : cs ⊆ ds) : SimV ds u v :=
  fun i => (h i).mono hs

/-! ## Loops -/

theorem lin_loop_front {α : Type} {lo hi : ℕ} (h : lo < hi) (f : ℕ → α → α) (s : α) :
    Lin.loop lo hi f s = Lin.loop (lo + 1) hi f (f lo s) := by
  unfold Lin.loop
  obtain ⟨k, hk⟩ : ∃ k, hi - lo = k + 1 := ⟨hi - lo - 1, by omega⟩
  rw [hk, show hi - (lo + 1) = k by omega, List.range'_succ]
  rfl

/-- An invariant of a loop that returns. -/
theorem loop_inv {α : Type} {f : ℕ → α → M D α} {hi : ℕ} (P : ℕ → List (Cond D) → α → Prop)
    (hs : ∀ i s cs s' ds, i < hi → P i cs s → f i s = .ok (s', ds) → P (i + 1) (cs ++ ds) s') :
    ∀ lo s cs s' ds, lo ≤ hi → P lo cs s → loop lo hi f s = .ok (s', ds) → P hi (cs ++ ds) s' := by
  suffices ∀ n lo s cs s' ds, hi = lo + n → P lo cs s → loop.go f n lo s = .ok (s', ds) → P hi (cs ++ ds) s' from
    fun lo s cs s' ds h => this (hi - lo) lo s cs s' ds (by omega)
  intro n
  induction n with
  | zero =>
    intro lo s cs s' ds h hp hr
    cases hr
    subst h
    simpa using hp
  | succ n ih =>
    intro lo s cs s' ds h hp hr
    obtain ⟨t, es, es', h1, h2, rfl⟩ := M.bind_ok.1 hr
    rw [← List.append_assoc]
    exact ih (lo + 1) t _ s' es' (by omega) (hs lo s cs t es (by omega) hp h1) h2

/-- Two loops side by side. -/
theorem loop_sim {α β : Type} {f : ℕ → α → M D α} {g : ℕ → β → β} {lo hi : ℕ} (P : List (Cond D) → α → β → Prop)
    (hs : ∀ i s t cs s' ds, P cs s t → f i s = .ok (s', ds) → P (cs ++ ds) s' (g i t))
    {s s' : α} {t : β} {cs ds : List (Cond D)} (hp : P cs s t) (hr : loop lo hi f s = .ok (s', ds)) :
    P (cs ++ ds) s' (Lin.loop lo hi g t) := by
  suffices ∀ n lo s t cs s' ds, hi - lo = n → P cs s t → loop.go f n lo s = .ok (s', ds) →
      P (cs ++ ds) s' (Lin.loop lo hi g t) from this (hi - lo) lo s t cs s' ds rfl hp hr
  intro n
  induction n with
  | zero =>
    intro lo s t cs s' ds h hp hr
    cases hr
    rw [Lin.loop_of_le (by omega)]
    simpa using hp
  | succ n ih =>
    intro lo s t cs s' ds h hp hr
    obtain ⟨u, es, es', h1, h2, rfl⟩ := M.bind_ok.1 hr
    rw [← List.append_assoc, lin_loop_front (by omega)]
    exact ih (lo + 1) u _ _ s' es' (by omega) (hs lo s t cs u es hp h1) h2

/-! ## The parts of the solver -/

theorem pivot_sim {A : ℕ → ℕ → Expr D} {B : ℕ → ℕ → M D (Expr D)} (h : SimM cs A B) (algo : Lin.Algo) (dim row : ℕ) :
    Lin.pivot (scal E) algo dim B row = pivot algo dim A row := by
  cases algo with
  | gauss =>
    show Lin.firstNonZeroFrom _ _ _ _ _ = firstNonZeroFrom _ _ _ _
    generalize dim - row = n
    suffices ∀ n i, Lin.firstNonZeroFrom (scal E) B row n i = firstNonZeroFrom A row n i from this _ _
    intro n
    induction n with
    | zero => intro i; rfl
    | succ n ih => intro i; simp only [Lin.firstNonZeroFrom, firstNonZeroFrom, (h i row).isZero, ih]
  | gaussLCPivot =>
    simp only [Lin.pivot, pivot, Lin.leastComplexityPivot, leastComplexityPivot, (h _ row).isZero, (h _ row).complexity]

theorem log_bind {α : Type} {c : Cond D} {f : Unit → M D α} {s : α} (h : (M.log c >>= f) = .ok (s, cs)) :
    ∃ ds, f () = .ok (s, ds) ∧ cs = c :: ds := by
  obtain ⟨u, es, es', h1, h2, rfl⟩ := M.bind_ok.1 h
  cases h1
  exact ⟨es', h2, rfl⟩

theorem pure_ok {α : Type} {s t : α} (h : (pure s : M D α) = .ok (t, cs)) : t = s ∧ cs = [] := by
  cases h; exact ⟨rfl, rfl⟩

theorem elimRow_sim {dim j i : ℕ} {A A' : ℕ → ℕ → Expr D} {B : ℕ → ℕ → M D (Expr D)} (h : SimM cs A B)
    (hr : elimRow E dim j i A = .ok (A', ds)) : SimM (cs ++ ds) A' (Lin.elimRow (scal E) dim j i B) := by
  unfold elimRow at hr
  obtain ⟨q, d1, e1, h1, hr1, rfl⟩ := M.bind_ok.1 hr
  obtain ⟨e2, hr2, rfl⟩ := log_bind hr1
  obtain ⟨q', d3, e3, h3, hr3, rfl⟩ := M.bind_ok.1 hr2
  have g : Sim (cs ++ d1 ++ d3) q' ((scal E).simplify ((scal E).div (B i j) (B j j))) :=
    ((h i j).app₂ (h j j) h1).app h3
  have g' : SimM (cs ++ d1 ++ d3) (Lin.set A i j q') (Lin.set B i j ((scal E).simplify ((scal E).div (B i j) (B j j)))) :=
    (h.mono (by simp)).set g i j
  refine (loop_sim (fun cs A B => SimM cs A B) ?_ g' hr3).mono ?_
  · intro k A B cs A' ds hAB hk
    obtain ⟨p, u1, v1, k1, hk1, rfl⟩ := M.bind_ok.1 hk
    obtain ⟨d, u2, v2, k2, hk2, rfl⟩ := M.bind_ok.1 hk1
    obtain ⟨r, u3, v3, k3, hk3, rfl⟩ := M.bind_ok.1 hk2
    obtain ⟨rfl, rfl⟩ := pure_ok hk3
    have q1 : Sim (cs ++ u1) p ((scal E).mul (B i j) (B j k)) := (hAB i j).app₂ (hAB j k) k1
    have q2 : Sim (cs ++ u1 ++ u2) d ((scal E).sub (B i k) ((scal E).mul (B i j) (B j k))) :=
      Sim.app₂ ((hAB i k).mono (by simp)) q1 k2
    have q3 : Sim (cs ++ u1 ++ u2 ++ u3) r ((scal E).simplify ((scal E).sub (B i k) ((scal E).mul (B i j) (B j k)))) :=
      q2.app k3
    refine (hAB.mono (by simp)).set (q3.mono (by simp)) i k
  · intro c hc
    simp only [List.mem_append, List.mem_cons] at hc ⊢
    tauto

theorem swapRows_sim {A : ℕ → ℕ → Expr D} {B : ℕ → ℕ → M D (Expr D)} (h : SimM cs A B) (dim f t : ℕ) :
    SimM cs (Lin.swapRows dim A f t) (Lin.swapRows dim B f t) := by
  by_cases hft : f = t
  · subst hft
    unfold Lin.swapRows
    suffices ∀ n lo A B, dim - lo = n → SimM cs A B →
      SimM cs (Lin.loop lo dim (fun j M => Lin.set (Lin.set M f j (M f j)) f j (M f j)) A)
        (Lin.loop lo dim (fun j M => Lin.set (Lin.set M f j (M f j)) f j (M f j)) B) from this _ _ _ _ rfl h
    intro n
    induction n with
    | zero => intro lo A B hn h; rw [Lin.loop_of_le (by omega), Lin.loop_of_le (by omega)]; exact h
    | succ n ih =>
      intro lo A B hn h
      rw [lin_loop_front (show lo < dim by omega), lin_loop_front (show lo < dim by omega)]
      exact ih (lo + 1) _ _ (by omega) ((h.set (h f lo) f lo).set (h f lo) f lo)
  · intro u v
    rw [Lin.swapRows_eq hft, Lin.swapRows_eq hft]
    split
    · exact h _ _
    · split <;> exact h _ _

/-- States of the elimination. -/
structure SimS (cs : List (Cond D)) (s : Lin.St (Expr D)) (t : Lin.St (M D (Expr D))) : Prop where
  mat : SimM cs s.M t.M
  vec : SimV cs s.b t.b
  swaps : t.swaps = s.swaps

theorem elimCol_sim {algo : Lin.Algo} {dim j : ℕ} {s s' : Lin.St (Expr D)} {t : Lin.St (M D (Expr D))} (h : SimS cs s t)
    (hr : elimCol E algo dim j s = .ok (s', ds)) :
    ∃ t', Lin.elimCol (scal E) algo dim j t = .ok t' ∧ SimS (cs ++ ds) s' t' := by
  unfold elimCol at hr
  obtain ⟨p, d1, e1, h1, hr1, rfl⟩ := M.bind_ok.1 hr
  obtain ⟨A, d2, e2, h2, hr2, rfl⟩ := M.bind_ok.1 hr1
  obtain ⟨rfl, rfl⟩ := pure_ok hr2
  have hp : pivot algo dim s.M j = .ok p ∧ d1 = [] := by
    unfold M.lift at h1
    split at h1
    · cases h1
    · rename_i q hq
      cases h1; exact ⟨hq, rfl⟩
  obtain ⟨hp, rfl⟩ := hp
  have hp' := pivot_sim (E := E) h.mat algo dim j
  rw [hp] at hp'
  have hs : SimS cs (if p = j then s else ⟨Lin.swapRows dim s.M j p, Lin.swapScalar s.b j p, s.swaps + 1⟩)
      (if p = j then t else ⟨Lin.swapRows dim t.M j p, Lin.swapScalar t.b j p, t.swaps + 1⟩) := by
    split
    · exact h
    · refine ⟨swapRows_sim h.mat _ _ _, fun i => ?_, by simp [h.swaps]⟩
      simp only [Lin.swapScalar_eq]
      split
      · exact h.vec _
      · split <;> exact h.vec _
  refine ⟨_, by unfold Lin.elimCol; rw [hp']; rfl, ?_, ?_, ?_⟩
  · have := loop_sim (f := elimRow E dim j) (g := Lin.elimRow (scal E) dim j) (fun cs A B => SimM cs A B)
      (fun i s t cs s' ds h hr => elimRow_sim h hr) hs.mat h2
    exact this.mono (by simp)
  · exact hs.vec.mono (by simp)
  · exact hs.swaps

theorem loopM_sim {α β : Type} {f : ℕ → α → M D α} {g : ℕ → β → Except Err β} {lo hi : ℕ} (P : List (Cond D) → α → β → Prop)
    (hs : ∀ i s t cs s' ds, P cs s t → f i s = .ok (s', ds) → ∃ t', g i t = .ok t' ∧ P (cs ++ ds) s' t')
    {s s' : α} {t : β} {cs ds : List (Cond D)} (hp : P cs s t) (hr : loop lo hi f s = .ok (s', ds)) :
    ∃ t', Lin.loopM lo hi g t = .ok t' ∧ P (cs ++ ds) s' t' := by
  suffices ∀ n lo s t cs s' ds, hi - lo = n → P cs s t → loop.go f n lo s = .ok (s', ds) →
      ∃ t', Lin.loopM lo hi g t = .ok t' ∧ P (cs ++ ds) s' t' from this (hi - lo) lo s t cs s' ds rfl hp hr
  intro n
  induction n with
  | zero =>
    intro lo s t cs s' ds h hp hr
    cases hr
    exact ⟨t, Lin.loopM_of_le (by omega) _ _, by simpa using hp⟩
  | succ n ih =>
    intro lo s t cs s' ds h hp hr
    obtain ⟨u, es, es', h1, h2, rfl⟩ := M.bind_ok.1 hr
    obtain ⟨t1, g1, g2⟩ := hs lo s t cs u es hp h1
    obtain ⟨t', g3, g4⟩ := ih (lo + 1) u t1 _ s' es' (by omega) g2 h2
    refine ⟨t', ?_, by rw [← List.append_assoc]; exact g4⟩
    rw [Lin.loopM_front (by omega), g1]
    exact g3

theorem eliminateGauss_sim {algo : Lin.Algo} {dim : ℕ} {A : ℕ → ℕ → Expr D} {b : ℕ → Expr D} {s : Lin.St (Expr D)}
    {B : ℕ → ℕ → M D (Expr D)} {c : ℕ → M D (Expr D)} (hA : SimM cs A B) (hb : SimV cs b c)
    (hr : eliminateGauss E algo dim A b = .ok (s, ds)) :
    ∃ t, Lin.eliminateGauss (scal E) algo dim B c = .ok t ∧ SimS (cs ++ ds) s t :=
  loopM_sim (f := elimCol E algo dim) (g := Lin.elimCol (scal E) algo dim) (fun cs s t => SimS cs s t) (fun _ _ _ _ _ _ h hr => elimCol_sim h hr) ⟨hA, hb, rfl⟩ hr

theorem subMul_sim {A : ℕ → ℕ → Expr D} {B : ℕ → ℕ → M D (Expr D)} {i j : ℕ} {u u' : ℕ → Expr D} {v : ℕ → M D (Expr D)}
    (hA : SimM cs A B) (h : SimV cs u v) (hr : subMul E A i j u = .ok (u', ds)) :
    SimV (cs ++ ds) u' (Lin.set1 v i ((scal E).sub (v i) ((scal E).mul (B i j) (v j)))) := by
  obtain ⟨p, u1, v1, k1, hk1, rfl⟩ := M.bind_ok.1 hr
  obtain ⟨d, u2, v2, k2, hk2, rfl⟩ := M.bind_ok.1 hk1
  obtain ⟨rfl, rfl⟩ := pure_ok hk2
  have q1 : Sim (cs ++ u1) p ((scal E).mul (B i j) (v j)) := (hA i j).app₂ (h j) k1
  have q2 : Sim (cs ++ u1 ++ u2) d ((scal E).sub (v i) ((scal E).mul (B i j) (v j))) :=
    Sim.app₂ ((h i).mono (by simp)) q1 k2
  exact (h.mono (by simp)).set (q2.mono (by simp)) i

theorem subMul_loop {A : ℕ → ℕ → Expr D} {B : ℕ → ℕ → M D (Expr D)} {i lo hi : ℕ} {u u' : ℕ → Expr D} {v : ℕ → M D (Expr D)}
    (hA : SimM cs A B) (h : SimV cs u v) (hr : loop lo hi (fun j u => subMul E A i j u) u = .ok (u', ds)) :
    SimV (cs ++ ds) u' (Lin.loop lo hi (fun j v => Lin.set1 v i ((scal E).sub (v i) ((scal E).mul (B i j) (v j)))) v) :=
  (loop_sim (f := fun j u => subMul E A i j u)
    (g := fun j v => Lin.set1 v i ((scal E).sub (v i) ((scal E).mul (B i j) (v j)))) (fun cs u v => SimM cs A B ∧ SimV cs u v)
    (fun j u v cs u' ds h hr => ⟨h.1.mono (by simp), subMul_sim h.1 h.2 hr⟩) ⟨hA, h⟩ hr).2

theorem forward_sim {A : ℕ → ℕ → Expr D} {B : ℕ → ℕ → M D (Expr D)} {dim : ℕ} {u u' : ℕ → Expr D} {v : ℕ → M D (Expr D)}
    (hA : SimM cs A B) (h : SimV cs u v) (hr : forward E dim A u = .ok (u', ds)) :
    SimV (cs ++ ds) u' (Lin.forward (scal E) dim B v) :=
  (loop_sim (f := fun i b => loop 0 i (fun j b => subMul E A i j b) b)
    (g := fun i b => Lin.loop 0 i (fun j b => Lin.set1 b i ((scal E).sub (b i) ((scal E).mul (B i j) (b j)))) b)
    (fun cs u v => SimM cs A B ∧ SimV cs u v)
    (fun j u v cs u' ds h hr => ⟨h.1.mono (by simp), subMul_loop h.1 h.2 hr⟩) ⟨hA, h⟩ hr).2

theorem backStep_sim {A : ℕ → ℕ → Expr D} {B : ℕ → ℕ → M D (Expr D)} {dim i : ℕ} {b u u' : ℕ → Expr D} {c v : ℕ → M D (Expr D)}
    (hA : SimM cs A B) (hb : SimV cs b c) (h : SimV cs u v) (hr : backStep E dim A b i u = .ok (u', ds)) :
    (∃ v', Lin.backStep (scal E) dim B c i v = .ok v' ∧ SimV (cs ++ ds) u' v') ∧
    ∃ d, Sim (cs ++ ds) d ((scal E).simplify (B i i)) ∧ .nz d ∈ ds := by
  unfold backStep at hr
  obtain ⟨w, d1, e1, h1, hr1, rfl⟩ := M.bind_ok.1 hr
  obtain ⟨d, d2, e2, h2, hr2, rfl⟩ := M.bind_ok.1 hr1
  have g1 := subMul_loop hA h h1
  have g2 : Sim (cs ++ d2) d ((scal E).simplify (B i i)) := (hA i i).app h2
  split at hr2
  · cases hr2
  rename_i hz
  obtain ⟨s, d3, e3, h3, hr3, rfl⟩ := M.bind_ok.1 hr2
  obtain ⟨q, d4, e4, h4, hr4, rfl⟩ := M.bind_ok.1 hr3
  obtain ⟨e5, hr5, rfl⟩ := log_bind hr4
  obtain ⟨r, d6, e6, h6, hr6, rfl⟩ := M.bind_ok.1 hr5
  obtain ⟨rfl, rfl⟩ := pure_ok hr6
  generalize hv : Lin.loop (i + 1) dim (fun j v => Lin.set1 v i ((scal E).sub (v i) ((scal E).mul (B i j) (v j)))) v = v' at *
  have g3 : Sim (cs ++ d1 ++ d3) s ((scal E).add (c i) (v' i)) := Sim.app₂ ((hb i).mono (by simp)) (g1 i) h3
  have g4 : Sim (cs ++ d1 ++ d2 ++ d3 ++ d4) q ((scal E).div ((scal E).add (c i) (v' i)) ((scal E).simplify (B i i))) :=
    Sim.app₂ (g3.mono fun x hx => by simp only [List.mem_append] at hx ⊢; tauto)
      (g2.mono fun x hx => by simp only [List.mem_append] at hx ⊢; tauto) h4
  have g5 : Sim (cs ++ d1 ++ d2 ++ d3 ++ d4 ++ d6) r ((scal E).simplify
      ((scal E).div ((scal E).add (c i) (v' i)) ((scal E).simplify (B i i)))) := g4.app h6
  refine ⟨⟨Lin.set1 v' i ((scal E).simplify ((scal E).div ((scal E).add (c i) (v' i)) ((scal E).simplify (B i i)))), ?_, ?_⟩, d, g2.mono fun x hx => by simp only [List.mem_append] at hx ⊢; tauto, by simp⟩
  rotate_left
  · refine SimV.set (g1.mono ?_) (g5.mono ?_) i
    · intro x hx; simp only [List.mem_append] at hx ⊢; tauto
    · intro x hx; simp only [List.mem_append, List.mem_cons] at hx ⊢; tauto
  · unfold Lin.backStep
    simp only [hv, g2.isZero, hz]
    rfl

theorem back_sim {A : ℕ → ℕ → Expr D} {B : ℕ → ℕ → M D (Expr D)} {dim : ℕ} {b : ℕ → Expr D} {c : ℕ → M D (Expr D)}
    {bs : List (Cond D)} (hA : SimM bs A B) (hb : SimV bs b c) : ∀ n u u' v cs ds, bs ⊆ cs → SimV cs u v →
      loopDown (backStep E dim A b) n u = .ok (u', ds) →
      (∃ v', Lin.loopDownM (Lin.backStep (scal E) dim B c) n v = .ok v' ∧ SimV (cs ++ ds) u' v') ∧
      ∀ i < n, ∃ d, Sim (cs ++ ds) d ((scal E).simplify (B i i)) ∧ .nz d ∈ ds := by
  intro n
  induction n with
  | zero =>
    intro u u' v cs ds _ h hr
    cases hr
    exact ⟨⟨v, rfl, by simpa using h⟩, by omega⟩
  | succ n ih =>
    intro u u' v cs ds hbs h hr
    obtain ⟨w, e1, e2, h1, h2, rfl⟩ := M.bind_ok.1 hr
    obtain ⟨⟨v1, g1, g2⟩, d, g3, g4⟩ := backStep_sim (hA.mono hbs) (hb.mono hbs) h h1
    obtain ⟨⟨v', g5, g6⟩, g7⟩ := ih w u' v1 _ e2 (List.Subset.trans hbs (by simp)) g2 h2
    refine ⟨⟨v', ?_, by rw [← List.append_assoc]; exact g6⟩, fun i hi => ?_⟩
    · simp only [Lin.loopDownM, g1]
      exact g5
    · rcases Nat.lt_or_ge i n with hlt | hge
      · obtain ⟨d, k1, k2⟩ := g7 i hlt
        exact ⟨d, by rw [← List.append_assoc]; exact k1, by simp [k2]⟩
      · have : i = n := by omega
        subst this
        exact ⟨d, g3.mono fun x hx => by simp only [List.mem_append] at hx ⊢; tauto, by simp [g4]⟩

theorem zeroLoop_sim {dim : ℕ} {u : ℕ → Expr D} {v : ℕ → M D (Expr D)} (h : SimV cs u v) :
    SimV cs (Lin.loop 0 dim (fun i x => Lin.set1 x i zero) u) (Lin.loop 0 dim (fun i x => Lin.set1 x i (scal E).zero) v) := by
  suffices ∀ n lo u v, dim - lo = n → SimV cs u v →
    SimV cs (Lin.loop lo dim (fun i x => Lin.set1 x i zero) u) (Lin.loop lo dim (fun i x => Lin.set1 x i (scal E).zero) v) from
      this _ _ _ _ rfl h
  intro n
  induction n with
  | zero => intro lo u v hn h; rw [Lin.loop_of_le (by omega), Lin.loop_of_le (by omega)]; exact h
  | succ n ih =>
    intro lo u v hn h
    rw [lin_loop_front (show lo < dim by omega), lin_loop_front (show lo < dim by omega)]
    exact ih (lo + 1) _ _ (by omega) (h.set (Sim.pure _ _) lo)

theorem computeSolution_sim {A : ℕ → ℕ → Expr D} {B : ℕ → ℕ → M D (Expr D)} {dim : ℕ} {b u u' : ℕ → Expr D}
    {c v : ℕ → M D (Expr D)} (hA : SimM cs A B) (hb : SimV cs b c) (hu : SimV cs u v)
    (hr : computeSolution E dim A b u = .ok (u', ds)) :
    (∃ v', Lin.computeSolution (scal E) dim B c v = .ok v' ∧ SimV (cs ++ ds) u' v') ∧
    ∀ i < dim, ∃ d, Sim (cs ++ ds) d ((scal E).simplify (B i i)) ∧ .nz d ∈ ds := by
  unfold computeSolution at hr
  obtain ⟨w, e1, e2, h1, h2, rfl⟩ := M.bind_ok.1 hr
  have g1 := forward_sim hA hb h1
  obtain ⟨⟨v', k1, k2⟩, k3⟩ := back_sim (hA.mono (by simp)) g1 dim _ u' _ (cs ++ e1) e2 (by simp) (zeroLoop_sim (E := E) (hu.mono (by simp))) h2
  refine ⟨⟨v', k1, by rw [← List.append_assoc]; exact k2⟩, fun i hi => ?_⟩
  obtain ⟨d, q1, q2⟩ := k3 i hi
  exact ⟨d, by rw [← List.append_assoc]; exact q1, by simp [q2]⟩

theorem detFromPlu_sim {A : ℕ → ℕ → Expr D} {B : ℕ → ℕ → M D (Expr D)} {dim swaps : ℕ} (hA : SimM cs A B)
    (hr : detFromPlu E dim A swaps = .ok (r, ds)) : Sim (cs ++ ds) r (Lin.detFromPlu (scal E) dim B swaps) := by
  unfold detFromPlu at hr
  obtain ⟨d, e1, e2, h1, h2, rfl⟩ := M.bind_ok.1 hr
  have g : Sim (cs ++ e1) d (Lin.loop 0 dim (fun i d => (scal E).mul d (B i i))
      (if swaps % 2 = 0 then (scal E).one else (scal E).minusOne)) := by
    refine (loop_sim (fun cs d m => SimM cs A B ∧ Sim cs d m)
      (fun i d m cs d' ds h hr => ⟨h.1.mono (by simp), h.2.app₂ (h.1 i i) hr⟩) ⟨hA, ?_⟩ h1).2
    split <;> exact Sim.pure _ _
  rw [← List.append_assoc]
  exact g.app h2

/-! ## Pivots of the elimination -/

theorem elimRow_nz {dim j i : ℕ} {A A' : ℕ → ℕ → Expr D} (hr : elimRow E dim j i A = .ok (A', ds)) :
    (∀ u v, u ≠ i → A' u v = A u v) ∧ .nz (A j j) ∈ ds := by
  unfold elimRow at hr
  obtain ⟨q, d1, e1, h1, hr1, rfl⟩ := M.bind_ok.1 hr
  obtain ⟨e2, hr2, rfl⟩ := log_bind hr1
  obtain ⟨q', d3, e3, h3, hr3, rfl⟩ := M.bind_ok.1 hr2
  refine ⟨?_, by simp⟩
  by_cases hle : j + 1 ≤ dim
  · have := loop_inv (fun _ _ A' => ∀ u v, u ≠ i → A' u v = A u v) (by
      intro k B cs B' ds _ hB hk u v hu
      obtain ⟨p, u1, v1, k1, hk1, rfl⟩ := M.bind_ok.1 hk
      obtain ⟨d, u2, v2, k2, hk2, rfl⟩ := M.bind_ok.1 hk1
      obtain ⟨r, u3, v3, k3, hk3, rfl⟩ := M.bind_ok.1 hk2
      obtain ⟨rfl, rfl⟩ := pure_ok hk3
      simp only [Lin.set, hu, false_and, if_false]
      exact hB u v hu) (j + 1) _ [] A' e3 hle (by
        intro u v hu; simp only [Lin.set, hu, false_and, if_false]) hr3
    exact this
  · intro u v hu
    unfold loop at hr3
    rw [show dim - (j + 1) = 0 by omega] at hr3
    cases hr3
    simp only [Lin.set, hu, false_and, if_false]

theorem elimCol_nz {algo : Lin.Algo} {dim j : ℕ} (hj : j + 1 < dim) {s s' : Lin.St (Expr D)}
    (hr : elimCol E algo dim j s = .ok (s', ds)) :
    (∀ u, u < j → s'.M u u = s.M u u) ∧ .nz (s'.M j j) ∈ ds := by
  unfold elimCol at hr
  obtain ⟨p, d1, e1, h1, hr1, rfl⟩ := M.bind_ok.1 hr
  obtain ⟨A, d2, e2, h2, hr2, rfl⟩ := M.bind_ok.1 hr1
  obtain ⟨rfl, rfl⟩ := pure_ok hr2
  have hp : pivot algo dim s.M j = .ok p := by
    unfold M.lift at h1
    split at h1
    · cases h1
    · rename_i q hq
      cases h1; exact hq
  have hp' := pivot_sim (E := E) (cs := []) (A := s.M) (B := fun i k => pure (s.M i k)) (fun i k => Sim.pure _ _) algo dim j
  rw [hp] at hp'
  obtain ⟨q1, q2⟩ := Lin.pivot_range (scal E) (by omega) hp'
  generalize hB : (if p = j then s else ⟨Lin.swapRows dim s.M j p, Lin.swapScalar s.b j p, s.swaps + 1⟩ : Lin.St (Expr D)) = s1 at h2
  have hs : ∀ u, u < j → s1.M u u = s.M u u := by
    intro u hu
    subst hB
    split
    · rfl
    · rename_i hne
      show Lin.swapRows dim s.M j p u u = _
      rw [Lin.swapRows_eq (fun e => hne e.symm), if_neg (by omega), if_neg (by omega)]
  have key := loop_inv (f := elimRow E dim j) (fun i cs A => j + 1 ≤ i ∧ (∀ u, u ≤ j → A u u = s1.M u u) ∧
      (j + 1 < i → .nz (s1.M j j) ∈ cs)) (by
      intro i A cs A' ds hi ⟨g0, g1, g2⟩ hr
      obtain ⟨k1, k2⟩ := elimRow_nz hr
      refine ⟨by omega, fun u hu => ?_, fun _ => ?_⟩
      · rw [k1 u u (by omega), g1 u hu]
      · rw [g1 j le_rfl] at k2
        simp [k2]) (j + 1) s1.M [] A d2 (by omega) ⟨le_rfl, fun _ _ => rfl, by omega⟩ h2
  obtain ⟨-, k1, k2⟩ := key
  refine ⟨fun u hu => ?_, ?_⟩
  · show A u u = _
    rw [k1 u (by omega), hs u hu]
  · show Cond.nz (A j j) ∈ _
    rw [k1 j le_rfl]
    have := k2 (by omega)
    simp only [List.nil_append] at this
    simp [this]

theorem eliminateGauss_nz {algo : Lin.Algo} {dim : ℕ} {A : ℕ → ℕ → Expr D} {b : ℕ → Expr D} {s : Lin.St (Expr D)}
    (hr : eliminateGauss E algo dim A b = .ok (s, ds)) : ∀ i, i + 1 < dim → .nz (s.M i i) ∈ ds := by
  have key := loop_inv (f := elimCol E algo dim) (hi := dim - 1) (fun j cs s => ∀ i, i < j → .nz (s.M i i) ∈ cs) (by
    intro j s cs s' ds hj h hr i hi
    obtain ⟨k1, k2⟩ := elimCol_nz (by omega) hr
    rcases Nat.lt_or_ge i j with hlt | hge
    · rw [k1 i hlt]; simp [h i hlt]
    · have : i = j := by omega
      subst this; simp [k2]) 0 _ [] s ds (by omega) (by omega) hr
  intro i hi
  simpa using key i (by omega)

/-! ## Values -/

section values

variable [LawfulFlt D] {cfg : Cfg D} {σ : Asg}

theorem Sim.val (h : Sim cs a x) (hc : ∀ c ∈ cs, c.holds σ) {v : ℝ} (hx : Vl σ x v) : den σ a = some v := by
  obtain ⟨es, rfl, h2⟩ := h
  exact hx a es rfl fun c hce => hc c (h2 hce)

/-- The elimination, where the recorded conditions hold. -/
theorem eliminateGauss_val (hcfg : cfg.Ok) {n : ℕ} (hσ : σ.Respects) {algo : Lin.Algo} {dim : ℕ} {A : ℕ → ℕ → Expr D}
    {b : ℕ → Expr D} {s : Lin.St (Expr D)} (hr : eliminateGauss (eng cfg n) algo dim A b = .ok (s, ds))
    (hc : ∀ c ∈ ds, c.holds σ) {α : ℕ → ℕ → ℝ} {β : ℕ → ℝ} (hA : ∀ i k, i < dim → k < dim → den σ (A i k) = some (α i k))
    (hb : ∀ i, i < dim → den σ (b i) = some (β i)) :
    ∃ t B m γ, SimS ds s t ∧ Lin.Inv (Vl σ) dim α β (dim - 1) t B m γ ∧ ∀ i, i + 1 < dim → m i i ≠ 0 := by
  obtain ⟨t, h1, h2⟩ := eliminateGauss_sim (cs := []) (B := fun i k => pure (A i k)) (c := fun i => pure (b i))
    (fun i k => Sim.pure _ _) (fun i => Sim.pure _ _) hr
  rw [List.nil_append] at h2
  have hnz : ∀ i, i + 1 < dim → ∀ v, Vl σ (t.M i i) v → v ≠ 0 := by
    intro i hi v hv
    obtain ⟨w, hw1, hw2⟩ := hc _ (eliminateGauss_nz hr i hi)
    have := (h2.mat i i).val hc hv
    rw [this] at hw1
    cases hw1; exact hw2
  obtain ⟨B, m, γ, hi⟩ := Lin.eliminateGauss_ok (scal (eng cfg n)) (Vl σ) (scal_sound hcfg n hσ)
    (A := α) (b := β) (fun i k h1 h2 => wp_pure (hA i k h1 h2)) (fun i h1 => wp_pure (hb i h1)) h1 hnz
  exact ⟨t, B, m, γ, h2, hi, fun i hi' => hnz i hi' _ (hi.valM i i (by omega) (by omega))⟩

/-- Elimination and substitution. -/
theorem solve_val (hcfg : cfg.Ok) {n : ℕ} (hσ : σ.Respects) {algo : Lin.Algo} {dim : ℕ} {A : ℕ → ℕ → Expr D}
    {b u u' : ℕ → Expr D} {s : Lin.St (Expr D)} {es : List (Cond D)}
    (hr : eliminateGauss (eng cfg n) algo dim A b = .ok (s, ds))
    (hs : computeSolution (eng cfg n) dim s.M s.b u = .ok (u', es))
    (hc : ∀ c ∈ ds ++ es, c.holds σ) {α : ℕ → ℕ → ℝ} {β : ℕ → ℝ} (hA : ∀ i k, i < dim → k < dim → den σ (A i k) = some (α i k))
    (hb : ∀ i, i < dim → den σ (b i) = some (β i)) :
    ∃ z, (∀ i, i < dim → den σ (u' i) = some (z i)) ∧ Lin.Solves dim α β z ∧ Lin.det dim α ≠ 0 := by
  obtain ⟨t, B, m, γ, h1, h2, h3⟩ := eliminateGauss_val hcfg hσ hr (fun c h => hc c (by simp [h])) hA hb
  obtain ⟨⟨v', k1, k2⟩, k3⟩ := computeSolution_sim h1.mat h1.vec (v := fun i => pure (u i)) (fun i => Sim.pure _ _) hs
  have hnz : ∀ i, i < dim → m i i ≠ 0 := by
    intro i hi
    obtain ⟨d, q1, q2⟩ := k3 i hi
    obtain ⟨w, hw1, hw2⟩ := hc _ (List.mem_append_right ds q2)
    have := q1.val hc ((scal_sound hcfg n hσ).simplify (h2.valM i i hi hi))
    rw [this] at hw1
    cases hw1; exact hw2
  obtain ⟨z, z1, z2⟩ := h2.computeSolution (scal (eng cfg n)) (Vl σ) (scal_sound hcfg n hσ) (by omega) hnz k1
  refine ⟨z, fun i hi => (k2 i).val hc (z1 i hi), z2, ?_⟩
  intro h0
  have := h2.det_final (Vl σ) (by omega)
  rw [h0] at this
  have hp : ∏ i ∈ Finset.range dim, m i i ≠ 0 := Finset.prod_ne_zero_iff.2 fun i hi => hnz i (Finset.mem_range.1 hi)
  have h1 : ((-1 : ℝ) ^ t.swaps) ≠ 0 := pow_ne_zero _ (by norm_num)
  simp_all

/-- Elimination and determinant. -/
theorem det_val (hcfg : cfg.Ok) {n : ℕ} (hσ : σ.Respects) {algo : Lin.Algo} {dim : ℕ} {A : ℕ → ℕ → Expr D}
    {b : ℕ → Expr D} {s : Lin.St (Expr D)} {es : List (Cond D)} {d : Expr D}
    (hr : eliminateGauss (eng cfg n) algo dim A b = .ok (s, ds))
    (hs : detFromPlu (eng cfg n) dim s.M s.swaps = .ok (d, es))
    (hc : ∀ c ∈ ds ++ es, c.holds σ) {α : ℕ → ℕ → ℝ} {β : ℕ → ℝ} (hA : ∀ i k, i < dim → k < dim → den σ (A i k) = some (α i k))
    (hb : ∀ i, i < dim → den σ (b i) = some (β i)) : den σ d = some (Lin.det dim α) := by
  obtain ⟨t, B, m, γ, h1, h2, h3⟩ := eliminateGauss_val hcfg hσ hr (fun c h => hc c (by simp [h])) hA hb
  have g := detFromPlu_sim h1.mat hs
  have k := Lin.detFromPlu_ok (scal (eng cfg n)) (Vl σ) (scal_sound hcfg n hσ)
    (fun i hi' => h2.valM i i hi' hi') s.swaps (dim := dim)
  rw [← h1.swaps, ← h2.det_final (Vl σ) (by omega), ← mul_assoc, ← mul_pow] at k
  simp only [mul_neg, mul_one, neg_neg, one_pow, one_mul] at k
  rw [h1.swaps] at k
  exact g.val hc k

end values

/-! ## The interface -/

theorem mat_toStdVec2 (src : ℕ → ℕ → Expr D) (skip : ℕ → Bool) (dim i k : ℕ)
    (hi : i < (Lin.keep skip dim).length) (hk : k < (Lin.keep skip dim).length) :
    mat (Lin.toStdVec2 src skip dim dim) (Lin.keep skip dim).length i k =
      src (Lin.kp skip dim i) (Lin.kp skip dim k) := by
  unfold mat
  rw [Lin.toStdVec2_eq, Lin.flatMap_getElem? _ _ (by simp) _ i k hi hk, Lin.kp_eq hi, Lin.kp_eq hk]
  simp [hk]

theorem vec_toStdVec1 (src : ℕ → Expr D) (skip : ℕ → Bool) (dim i : ℕ)
    (hi : i < (Lin.keep skip dim).length) :
    vec (Lin.toStdVec1 src skip dim) i = src (Lin.kp skip dim i) := by
  unfold vec
  rw [Lin.toStdVec1_eq, Lin.kp_eq hi]
  simp [hi]

theorem lift_ok {α : Type} {o : Except Err α} {s : α} (h : (M.lift o : M D α) = .ok (s, cs)) : o = .ok s := by
  unfold M.lift at h
  split at h
  · cases h
  · rename_i q
    cases h; rfl

theorem unique_kept {K : Type} [Field K] {skip : ℕ → Bool} {dim : ℕ} {A : ℕ → ℕ → K} {b w z : ℕ → K}
    (hd : (Lin.subMatrix skip dim A).det ≠ 0) (hw : Lin.SolvesKept skip dim A b w) (hz : Lin.SolvesKept skip dim A b z) :
    ∀ i, Lin.Kept skip dim i → z i = w i := by
  rintro i ⟨hi, hi'⟩
  obtain ⟨k, hk, rfl⟩ := Lin.kp_surj hi hi'
  rw [← Lin.det_keep] at hd
  have h0 := Matrix.eq_zero_of_mulVec_eq_zero
    (M := Matrix.of fun i k : Fin (Lin.keep skip dim).length => A (Lin.kp skip dim i) (Lin.kp skip dim k))
    (v := fun k => z (Lin.kp skip dim k) - w (Lin.kp skip dim k)) hd (by
      funext i
      have e1 := (Lin.solves_keep skip dim A b z).2 hz i i.2
      have e2 := (Lin.solves_keep skip dim A b w).2 hw i i.2
      rw [Finset.sum_range] at e1 e2
      simp only [Matrix.mulVec, dotProduct, Matrix.of_apply, mul_sub, Finset.sum_sub_distrib]
      rw [e1, e2, sub_self]; rfl)
  have := congrFun h0 ⟨k, hk⟩
  exact sub_eq_zero.1 this

end Tsym.LinE
