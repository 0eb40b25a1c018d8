import Verif.NumPowerSimplThm

/-!
# Helper lemmas: when the collection of equal primes is exact

`getEqualCountOf` compares the first and the last element of each block. On a sorted list in which
no prime occurs twice as often as the first one, this is enough. After `extract` with the
denominator `d` each prime occurs less than `d` times.
-/

namespace Tsym

namespace PrimeFac

/-- Both lists of primes are sorted. -/
def Sorted (p : PrimeFac) : Prop := p.num.Pairwise (· ≤ ·) ∧ p.den.Pairwise (· ≤ ·)

theorem strip_sorted (p k n : ℕ) : (strip p k n).1.Pairwise (· ≤ ·) := by
  have : ∀ k n, ∃ m, (strip p k n).1 = List.replicate m p := by
    intro k
    induction k with
    | zero => intro n; exact ⟨0, rfl⟩
    | succ k ih =>
      intro n
      unfold strip
      split
      · obtain ⟨m, hm⟩ := ih (n / p)
        exact ⟨m + 1, by simp [hm, List.replicate_succ]⟩
      · exact ⟨0, rfl⟩
  obtain ⟨m, hm⟩ := this k n
  rw [hm]
  exact List.pairwise_replicate.2 (Or.inr le_rfl)

theorem computeAndStoreInt_sorted {n : ℤ} {l : List ℕ} (h : computeAndStoreInt n = .ok l) :
    l.Pairwise (· ≤ ·) := by
  unfold computeAndStoreInt at h
  split at h
  · simp only [Except.ok.injEq] at h
    rw [← h]; exact strip_sorted _ _ _
  · by_cases h0 : n.natAbs = 0
    · simp [computeAndStore, h0] at h
    · obtain ⟨m, h1, _, h3, _⟩ := computeAndStore_spec n.natAbs (by omega)
      rw [h1] at h
      simp only [Except.ok.injEq] at h
      rw [← h]; exact h3

theorem ofNumber_sorted {D : Type} [Flt D] {n : Number D} {p : PrimeFac}
    (h : ofNumber n = .ok p) : p.Sorted := by
  unfold ofNumber at h
  split at h
  · simp only [Except.ok.injEq] at h; subst h; simp [one, Sorted]
  · simp only [Except.bind_ok, Except.pure_ok] at h
    obtain ⟨a, ha, b, hb, rfl⟩ := h
    exact ⟨computeAndStoreInt_sorted ha, computeAndStoreInt_sorted hb⟩

theorem multiply_sorted {p o : PrimeFac} (hp : p.Sorted) : (p.multiply o).Sorted := by
  unfold multiply
  split
  · exact hp
  · exact ⟨List.pairwise_insertionSort _ _, List.pairwise_insertionSort _ _⟩

theorem extractLoop_count (d : ℕ) (hd : 2 ≤ d) : ∀ xs rest prime n,
    rest.Pairwise (· ≥ ·) → (∀ z ∈ rest, z < prime) → (∀ x ∈ xs, prime ≤ x) →
    xs.Pairwise (· ≤ ·) → (∀ z, rest.count z < d) → n < d →
    (extractLoop d (List.replicate n prime ++ rest) prime n xs).1.Pairwise (· ≤ ·) ∧
    ∀ z, (extractLoop d (List.replicate n prime ++ rest) prime n xs).1.count z < d := by
  intro xs
  induction xs with
  | nil =>
    intro rest prime n h1 h2 _ _ h5 h6
    have hc : ∀ z, (List.replicate n prime ++ rest).count z < d := by
      intro z
      rw [List.count_append, List.count_replicate]
      split
      · rename_i hz
        have hz' : prime = z := by simpa using hz
        subst hz'
        have : rest.count prime = 0 := List.count_eq_zero.2 (fun hm => lt_irrefl _ (h2 _ hm))
        omega
      · have := h5 z; omega
    refine ⟨?_, ?_⟩
    · simp only [extractLoop]
      rw [List.pairwise_reverse]
      rw [List.pairwise_append]
      refine ⟨List.pairwise_replicate.2 (Or.inr le_rfl), h1, ?_⟩
      intro a ha b hb
      rw [List.mem_replicate] at ha
      rw [ha.2]; exact (h2 b hb).le
    · intro z
      simp only [extractLoop, List.count_reverse]
      exact hc z
  | cons x xs ih =>
    intro rest prime n h1 h2 h3 h4 h5 h6
    rw [List.pairwise_cons] at h4
    unfold extractLoop
    split
    · rename_i hx
      have hlt : prime < x := lt_of_le_of_ne (h3 x List.mem_cons_self) hx
      have := ih (List.replicate n prime ++ rest) x 1 (by
          rw [List.pairwise_append]
          refine ⟨List.pairwise_replicate.2 (Or.inr le_rfl), h1, ?_⟩
          intro a ha b hb
          rw [List.mem_replicate] at ha
          rw [ha.2]; exact (h2 b hb).le) (by
          intro z hz
          rcases List.mem_append.1 hz with hz | hz
          · rw [List.mem_replicate] at hz; rw [hz.2]; exact hlt
          · exact (h2 z hz).trans hlt) h4.1 h4.2 (by
          intro z
          rw [List.count_append, List.count_replicate]
          split
          · rename_i hz
            have hz' : prime = z := by simpa using hz
            subst hz'
            have : rest.count prime = 0 := List.count_eq_zero.2 (fun hm => lt_irrefl _ (h2 _ hm))
            omega
          · have := h5 z; omega) (by omega)
      simpa [List.replicate_succ] using this
    · rename_i hx
      have hx' : prime = x := by simpa using hx
      subst hx'
      split
      · rename_i hn
        have : (List.replicate n prime ++ rest).drop (d - 1) = List.replicate 0 prime ++ rest := by
          have : d - 1 = (List.replicate n prime).length := by simp; omega
          rw [this, List.drop_left]; simp
        simp only [this]
        exact ih rest prime 0 h1 h2 h4.1 h4.2 h5 (by omega)
      · rename_i hn
        have : prime :: (List.replicate n prime ++ rest) = List.replicate (n + 1) prime ++ rest := by
          simp [List.replicate_succ]
        rw [this]
        exact ih rest prime (n + 1) h1 h2 h4.1 h4.2 h5 (by omega)

theorem extract_count {D : Type} [Flt D] {p e r : PrimeFac} {q : ℚ}
    (h : p.extract (.rat q : Number D) = .ok (e, r)) (hp : p.Sorted) (hq : 2 ≤ q.den) :
    r.Sorted ∧ (∀ z, r.num.count z < q.den) ∧ (∀ z, r.den.count z < q.den) := by
  unfold extract at h
  simp only [Number.denominator, Number.numerator, Int.toNat_natCast, Except.bind_ok,
    Except.pure_ok, Prod.mk.injEq] at h
  obtain ⟨x, _, _, rfl⟩ := h
  have a := extractLoop_count q.den hq p.num [] 0 0 (by simp) (by simp) (by simp) hp.1
    (by simp; omega) (by omega)
  have b := extractLoop_count q.den hq p.den [] 0 0 (by simp) (by simp) (by simp) hp.2
    (by simp; omega) (by omega)
  simp only [List.replicate_zero, List.nil_append] at a b
  exact ⟨⟨a.1, b.1⟩, a.2, b.2⟩

/-- A sorted list whose first and `g`-th element agree begins with a block of `g` equal elements. -/
theorem block_eq {g x : ℕ} {xs : List ℕ} (hs : (x :: xs).Pairwise (· ≤ ·)) (hg : 0 < g)
    (h : (x :: xs)[g - 1]? = some x) :
    x :: xs = List.replicate g x ++ (x :: xs).drop g := by
  have hlen : g - 1 < (x :: xs).length := by
    by_contra hn
    rw [List.getElem?_eq_none (by omega)] at h
    cases h
  have : (x :: xs).take g = List.replicate g x := by
    rw [List.eq_replicate_iff]
    refine ⟨by simp at hlen ⊢; omega, ?_⟩
    intro b hb
    obtain ⟨i, hi, rfl⟩ := List.getElem_of_mem hb
    rw [List.getElem_take]
    have hi' : i < g := by simp at hi; omega
    have hil : i < (x :: xs).length := by omega
    apply le_antisymm
    · rw [List.getElem?_eq_getElem hlen] at h
      simp only [Option.some.injEq] at h
      rcases Nat.lt_or_ge i (g - 1) with hlt | hge
      · have := List.pairwise_iff_getElem.1 hs i (g - 1) hil hlen hlt
        omega
      · have : i = g - 1 := by omega
        subst this; exact h.le
    · rcases Nat.eq_zero_or_pos i with h0 | h0
      · subst h0; simp
      · have := List.pairwise_iff_getElem.1 hs 0 i (by simp) hil h0
        simpa using this
  rw [← this, List.take_append_drop]

theorem unique_replicate_append {g x : ℕ} (hg : 0 < g) {l : List ℕ} (hx : ∀ y ∈ l, y ≠ x) :
    unique (List.replicate g x ++ l) = x :: unique l := by
  induction g with
  | zero => omega
  | succ g ih =>
    rcases Nat.eq_zero_or_pos g with h0 | h0
    · subst h0
      cases l with
      | nil => simp [unique]
      | cons y ys =>
        have := hx y List.mem_cons_self
        simp [unique, Ne.symm this]
    · obtain ⟨k, rfl⟩ : ∃ k, g = k + 1 := ⟨g - 1, by omega⟩
      have := ih h0
      simp only [List.replicate_succ, List.cons_append] at this ⊢
      rw [unique]
      simp only [if_true]
      exact this

theorem dup_cons {g x : ℕ} {l : List ℕ} (hx : ∀ y ∈ l, y ≠ x) :
    dup g g (x :: l) = List.replicate g x ++ dup g g l := by
  cases l with
  | nil => simp [dup]
  | cons y ys =>
    have := hx y List.mem_cons_self
    simp [dup, this]

theorem blocks_exact (g : ℕ) (hg : 0 < g) : ∀ k (l : List ℕ), l.length ≤ k →
    l.Pairwise (· ≤ ·) → (∀ z, l.count z < 2 * g) → blocksOk g k l = true → g ∣ l.length →
    dup g g (unique l) = l := by
  intro k
  induction k with
  | zero =>
    intro l hl _ _ _ _
    have : l = [] := List.eq_nil_of_length_eq_zero (by omega)
    subst this; rfl
  | succ k ih =>
    intro l hl hs hc hb hd
    cases l with
    | nil => rfl
    | cons x xs =>
      simp only [blocksOk, Bool.and_eq_true, decide_eq_true_eq] at hb
      have e := block_eq hs hg hb.1
      have hge : g ≤ (x :: xs).length := by
        have := congrArg List.length e
        simp only [List.length_append, List.length_replicate, List.length_drop] at this
        omega
      have hs' : ((x :: xs).drop g).Pairwise (· ≤ ·) := hs.sublist (List.drop_sublist _ _)
      have hx : ∀ y ∈ (x :: xs).drop g, y ≠ x := by
        -- otherwise the next block also consists of x
        intro y hy hyx
        subst hyx
        cases hr : (y :: xs).drop g with
        | nil => rw [hr] at hy; cases hy
        | cons w ws =>
          rw [hr] at hy hb hs'
          have hwx : w = y := by
            apply le_antisymm
            · rcases List.mem_cons.1 hy with h | h
              · exact h.ge
              · exact (List.pairwise_cons.1 hs').1 y h
            · have hs2 := hs
              rw [e, hr, List.pairwise_append] at hs2
              exact hs2.2.2 y (List.mem_replicate.2 ⟨by omega, rfl⟩) w List.mem_cons_self
          subst hwx
          have hlen : (w :: ws).length = (w :: xs).length - g := by rw [← hr, List.length_drop]
          cases k with
          | zero =>
            simp at hl
            subst hl
            have : g = 1 := by simp at hge; omega
            subst this
            simp at hr
          | succ k =>
            simp only [blocksOk, Bool.and_eq_true, decide_eq_true_eq] at hb
            have e2 := block_eq hs' hg hb.2.1
            have := hc w
            rw [e, hr, e2, List.count_append, List.count_append, List.count_replicate_self] at this
            omega
      have ih' := ih ((x :: xs).drop g) (by rw [List.length_drop]; simp at hl ⊢; omega) hs' (by
        intro z
        exact lt_of_le_of_lt ((List.drop_sublist _ _).count_le z) (hc z)) hb.2 (by
        rw [List.length_drop]; exact Nat.dvd_sub hd (dvd_refl g))
      conv_lhs => rw [e]
      rw [unique_replicate_append hg hx, dup_cons (fun y hy => hx y (unique_mem _ _ hy)), ih', ← e]

theorem equalCountOf_exact {l : List ℕ} {c : ℕ} (h : equalCountOf l = .ok c) (hc : 1 < c)
    (hs : l.Pairwise (· ≤ ·)) (hn : ∀ z, l.count z < 4) : dup c c (unique l) = l := by
  cases l with
  | nil => simp [equalCountOf] at h
  | cons x xs =>
    unfold equalCountOf at h
    simp only at h
    set g := ((x :: xs).takeWhile (· == x)).length with hg
    have hgpos : 0 < g := by rw [hg]; simp
    split at h
    · simp only [Except.ok.injEq] at h; omega
    · rename_i hmod
      split at h
      · simp only [Except.ok.injEq] at h; omega
      · simp only [Except.ok.injEq] at h
        split at h
        · rename_i hb
          subst h
          have hb' : blocksOk g ((x :: xs).length + 1) (x :: xs) = true := by
            simp only [blocksOk, hb, Bool.and_true, decide_eq_true_eq]
            have hle : g ≤ (x :: xs).length := by
              rw [hg]; exact (List.takeWhile_sublist _).length_le
            have hlt : g - 1 < (x :: xs).length := by omega
            rw [List.getElem?_eq_getElem hlt]
            have hlt' : g - 1 < ((x :: xs).takeWhile (· == x)).length := by omega
            have : (x :: xs)[g - 1] = ((x :: xs).takeWhile (· == x))[g - 1] := by
              have hp := List.takeWhile_prefix (l := x :: xs) (· == x)
              exact (hp.getElem hlt').symm
            rw [this]
            have := List.all_eq_true.1 (List.all_takeWhile (p := (· == x)) (l := x :: xs)) _
              (List.getElem_mem hlt')
            simpa using this
          exact blocks_exact g (by omega) _ _ (by simp) hs (fun z => by have := hn z; omega) hb'
            (by omega)
        · omega

theorem collectExact_of_count {nb : PrimeFac} (hs : nb.Sorted) (h1 : ∀ z, nb.num.count z < 4)
    (h2 : ∀ z, nb.den.count z < 4) : NumPowerSimpl.collectExact nb = true := by
  unfold NumPowerSimpl.collectExact
  split
  · rename_i c hc
    by_cases h : c ≤ 1
    · simp [h]
    · simp only [Bool.or_eq_true, decide_eq_true_eq, Bool.and_eq_true, beq_iff_eq]
      right
      have hc1 : 1 < c := by omega
      unfold equalCount at hc
      split at hc
      · simp only [Except.ok.injEq] at hc; omega
      · split at hc
        · rename_i hnum
          refine ⟨by rw [hnum]; rfl, equalCountOf_exact hc hc1 hs.2 h2⟩
        · split at hc
          · rename_i hden
            refine ⟨equalCountOf_exact hc hc1 hs.1 h1, by rw [hden]; rfl⟩
          · simp only [Except.bind_ok, Except.pure_ok] at hc
            obtain ⟨a, ha, b, hb, hab⟩ := hc
            split at hab
            · rename_i e
              subst e hab
              exact ⟨equalCountOf_exact ha hc1 hs.1 h1, equalCountOf_exact hb hc1 hs.2 h2⟩
            · omega
  · rfl

end PrimeFac

namespace NumPowerSimpl

variable {D : Type} [Flt D]

/-- The denominators for which the collection of primes is exact. -/
def SmallDen (e : ℚ) : Prop := e.den = 2 ∨ e.den = 3 ∨ e.den = 4

theorem cancel_ghost {b pf : Number D} {e : ℚ} {r : Payload D} {g : Bool} (he : SmallDen e)
    (h : cancel ⟨b, .rat e, pf⟩ = .ok (r, g)) : g = true := by
  unfold cancel at h
  simp only [Except.bind_ok] at h
  obtain ⟨nb, hnb, ⟨P, p1⟩, hP, ⟨E, R⟩, hER, pn, hpn, ⟨S, ne⟩, hS, p2, hp2, p3, hp3, h⟩ := h
  simp only [Except.pure_ok, Prod.mk.injEq] at h
  obtain ⟨_, rfl⟩ := h
  have hexp : p1.exp = .rat e := by
    unfold defPreFacPrimesInPower at hP
    simp only [Except.bind_ok] at hP
    obtain ⟨_, _, _, _, hP⟩ := hP
    split at hP
    · simp only [Except.pure_ok, Prod.mk.injEq] at hP
      rw [← hP.2]
    · simp only [Except.bind_ok, Except.pure_ok, Prod.mk.injEq] at hP
      obtain ⟨_, _, _, _, _, hP⟩ := hP
      rw [← hP]
  simp only [hexp] at hER
  have hd : 2 ≤ e.den ∧ e.den ≤ 4 := by rcases he with h | h | h <;> omega
  obtain ⟨a, b, c⟩ := PrimeFac.extract_count hER
    (PrimeFac.multiply_sorted (PrimeFac.ofNumber_sorted hnb)) hd.1
  exact PrimeFac.collectExact_of_count a (fun z => lt_of_lt_of_le (b z) hd.2)
    (fun z => lt_of_lt_of_le (c z) hd.2)

theorem computeAllPos_ghost {b pf : Number D} {e : ℚ} {r : Payload D} {g neg : Bool} {max : ℤ}
    (he : SmallDen e) (h : computeAllPos max neg ⟨b, .rat e, pf⟩ = .ok (r, g)) : g = true := by
  unfold computeAllPos at h
  simp only [Except.bind_ok] at h
  obtain ⟨⟨p, g'⟩, hp, h⟩ := h
  simp only [Except.pure_ok, Prod.mk.injEq] at h
  obtain ⟨_, rfl⟩ := h
  split at hp
  · exact cancel_ghost he hp
  · split at hp
    · simp only [Except.bind_ok, Except.pure_ok, Prod.mk.injEq] at hp
      obtain ⟨_, _, _, h⟩ := hp
      exact h.symm
    · simp only [Except.pure_ok, Prod.mk.injEq] at hp
      exact hp.2.symm

theorem computePosExp_ghost {b pf : Number D} {e : ℚ} {r : Payload D} {g : Bool} {max : ℤ}
    (he : SmallDen e) (h : computePosExp max ⟨b, .rat e, pf⟩ = .ok (r, g)) : g = true := by
  have key : ∀ b pf : Number D, computePosExpPosBase max ⟨b, .rat e, pf⟩ = .ok (r, g) → g = true := by
    intro b pf h
    unfold computePosExpPosBase at h
    split at h
    · exact computeAllPos_ghost he h
    · exact computeAllPos_ghost he h
  unfold computePosExp at h
  simp only [Except.bind_ok] at h
  obtain ⟨p, hp, h⟩ := h
  split at hp
  · unfold shiftNegBase at hp
    simp only [Except.bind_ok, Except.pure_ok] at hp
    obtain ⟨_, _, rfl⟩ := hp
    exact key _ _ h
  · simp only [Except.pure_ok] at hp
    subst hp
    exact key _ _ h

theorem compute_ghost {p r : Payload D} {e : ℚ} {g : Bool} {max : ℤ} (hpe : p.exp = .rat e)
    (he : SmallDen e) (h : compute max p = .ok (r, g)) : g = true := by
  obtain ⟨b, pe, pf⟩ := p
  simp only at hpe
  subst hpe
  unfold compute at h
  split at h
  · simp only [Except.pure_ok, Prod.mk.injEq] at h; exact h.2.symm
  · split at h
    · simp only [Except.bind_ok, Except.pure_ok, Prod.mk.injEq] at h
      obtain ⟨_, _, _, h⟩ := h
      exact h.symm
    · unfold computeRational at h
      simp only [Except.bind_ok] at h
      obtain ⟨⟨q, g'⟩, hq, h⟩ := h
      simp only [Except.pure_ok, Prod.mk.injEq] at h
      obtain ⟨_, _, _, rfl⟩ := h
      split at hq
      · unfold computeNegExp at hq
        simp only [Except.bind_ok] at hq
        obtain ⟨pre, _, ⟨p2, g2⟩, hp2, pre2, _, hq⟩ := hq
        rw [Number.neg_one_def] at hp2
        simp only [Number.mul] at hp2
        have hg2 := computePosExp_ghost (e := e * -1) (by
          unfold SmallDen; rw [mul_neg_one, Rat.neg_den]; exact he) hp2
        subst hg2
        split at hq
        · simp only [Except.pure_ok, Prod.mk.injEq] at hq; exact hq.2.symm
        · split at hq
          · simp only [Except.bind_ok, Except.pure_ok, Prod.mk.injEq] at hq
            obtain ⟨_, _, _, h⟩ := hq
            exact h.symm
          · simp only [Except.pure_ok, Prod.mk.injEq] at hq; exact hq.2.symm
      · exact computePosExp_ghost he hq

end NumPowerSimpl

end Tsym
