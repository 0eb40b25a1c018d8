import Verif.Parser

set_option autoImplicit false
set_option linter.unusedSimpArgs false

/-!
# Matching: fuel, length and stack depth
-/

namespace Tsym

open PRes

variable {D : Type} {conv : Str → Option D}

instance : LawfulMonad (M D) := LawfulMonad.mk' _
  (id_map := fun x => by
    rcases x with e | ⟨a, cs⟩
    · rfl
    · show M.bind _ _ = _
      simp only [M.bind, Function.comp, Pure.pure, M.pure, List.append_nil, id]
      rfl)
  (pure_bind := fun a f => by
    show M.bind (M.pure a) f = f a
    simp only [M.bind, M.pure, List.nil_append]
    rcases f a with e | ⟨b, cs⟩ <;> rfl)
  (bind_assoc := fun x f g => by
    show M.bind (M.bind x f) g = M.bind x fun a => M.bind (f a) g
    rcases x with e | ⟨a, cs⟩
    · rfl
    · simp only [M.bind]
      rcases f a with e | ⟨b, ds⟩
      · rfl
      · simp only
        rcases g b with e | ⟨c, es⟩
        · rfl
        · simp only [List.append_assoc]
          rfl)

/-! ## More fuel does not change a result -/

/-- `q` is `p`, unless `p` has no result. -/
def PRes.Le (p q : PRes D) : Prop := p = none ∨ p = q

theorem PRes.Le.refl {p : PRes D} : p.Le p := .inr rfl

theorem PRes.Le.pre {a : List (Act D)} {p q : PRes D} (h : p.Le q) : (p.pre a).Le (q.pre a) := by
  rcases h with rfl | rfl
  · exact .inl rfl
  · exact .inr rfl

theorem PRes.Le.seq {p p' : PRes D} {q q' : Str → PRes D} (h : p.Le p') (hq : ∀ r, (q r).Le (q' r)) :
    (p.seq q).Le (p'.seq q') := by
  rcases h with rfl | rfl
  · exact .inl rfl
  · rcases p with _ | ⟨a, _ | r⟩
    · exact .inl rfl
    · exact .inr rfl
    · exact (hq r).pre

theorem PRes.Le.alt {p p' q q' : PRes D} (h : p.Le p') (hq : q.Le q') : (p.alt q).Le (p'.alt q') := by
  rcases h with rfl | rfl
  · exact .inl rfl
  · rcases p with _ | ⟨a, _ | r⟩
    · exact .inl rfl
    · exact hq.pre
    · exact .inr rfl

theorem PRes.Le.act {p p' : PRes D} {x : Act D} (h : p.Le p') : (p.act x).Le (p'.act x) := by
  rcases h with rfl | rfl
  · exact .inl rfl
  · exact .inr rfl

theorem PRes.Le.star {p p' : PRes D} {q q' : Str → PRes D} (h : p.Le p') (hq : ∀ r, (q r).Le (q' r))
    (s : Str) : (p.star q s).Le (p'.star q' s) := by
  rcases h with rfl | rfl
  · exact .inl rfl
  · rcases p with _ | ⟨a, _ | r⟩
    · exact .inl rfl
    · exact .inr rfl
    · exact (hq r).pre

theorem oneArgP_le {f g : Str → PRes D} (h : ∀ r, (f r).Le (g r)) (s : Str) :
    (oneArgP f s).Le (oneArgP g s) := by
  unfold oneArgP
  split
  · exact .refl
  · exact (PRes.Le.refl.seq fun r => (h r).seq fun _ => .refl).act

theorem twoArgP_le {f g : Str → PRes D} (h : ∀ r, (f r).Le (g r)) (s : Str) :
    (twoArgP f s).Le (twoArgP g s) := by
  unfold twoArgP
  split
  · exact .refl
  · exact (PRes.Le.refl.seq fun r => (h r).seq fun _ => PRes.Le.refl.seq fun r => (h r).seq fun _ => .refl).act

theorem parenP_le {f g : Str → PRes D} (h : ∀ r, (f r).Le (g r)) (s : Str) :
    (parenP f s).Le (parenP g s) := PRes.Le.refl.seq fun r => (h r).seq fun _ => .refl

theorem peg_succ (n : Nat) : ∀ R s, (peg conv n R s).Le (peg conv (n + 1) R s) := by
  induction n with
  | zero => exact fun _ _ => .inl rfl
  | succ n ih =>
    intro R s
    cases R <;> rw [peg, peg]
    · exact PRes.Le.refl.seq fun r => (ih _ _).seq (ih _)
    · exact ((PRes.Le.refl.seq (ih _)).act.alt (PRes.Le.refl.seq (ih _)).act).star (ih _) s
    · exact (ih _ _).seq (ih _)
    · exact ((PRes.Le.refl.seq (ih _)).act.alt (PRes.Le.refl.seq (ih _)).act).star (ih _) s
    · exact (ih _ _).alt (PRes.Le.refl.seq fun r => (ih _ _).act)
    · exact (ih _ _).seq (ih _)
    · exact (PRes.Le.refl.seq fun r => (ih _ _).act).star (ih _) s
    · exact (oneArgP_le (ih _) s).alt ((twoArgP_le (ih _) s).alt (PRes.Le.refl.alt (parenP_le (ih _) s)))

theorem peg_mono {m n : Nat} (h : m ≤ n) {R : PRule} {s : Str} {x} (hx : peg conv m R s = some x) :
    peg conv n R s = some x := by
  induction h with
  | refl => exact hx
  | step _ ih =>
    rcases peg_succ _ R s with h | h
    · rw [ih] at h; cases h
    · rw [← h, ih]

/-- The result of a rule, whatever the fuel. -/
def Peg (conv : Str → Option D) (R : PRule) (s : Str) (x : List (Act D) × Option Str) : Prop :=
  ∃ n, peg conv n R s = some x

theorem Peg.det {R : PRule} {s : Str} {x y} (hx : Peg conv R s x) (hy : Peg conv R s y) : x = y := by
  obtain ⟨m, hm⟩ := hx
  obtain ⟨n, hn⟩ := hy
  have h1 := peg_mono (le_max_left m n) hm
  have h2 := peg_mono (le_max_right m n) hn
  rw [h1] at h2
  exact Option.some.inj h2

/-! ## Terminals consume input -/

theorem skipS_suffix (s : Str) : skipS s <:+ s := List.dropWhile_suffix _

theorem litC_suffix {c : Char} {s r : Str} (h : litC c s = some r) : c :: r <:+ s := by
  unfold litC at h
  split at h
  · rename_i x r' hs
    split at h
    · rename_i hx
      cases h
      subst hx
      exact hs ▸ skipS_suffix s
    · cases h
  · cases h

theorem litC_length {c : Char} {s r : Str} (h : litC c s = some r) : r.length < s.length := by
  have := (litC_suffix h).length_le
  rw [List.length_cons] at this
  omega

theorem noCase_suffix {w s r : Str} (h : noCase w s = some r) : r <:+ s ∧ r.length + w.length = s.length := by
  induction w generalizing s with
  | nil => simp [noCase] at h; subst h; simp
  | cons c w ih =>
    cases s with
    | nil => simp [noCase] at h
    | cons x s =>
      simp only [noCase] at h
      split at h
      · obtain ⟨h1, h2⟩ := ih h
        exact ⟨h1.trans (List.suffix_cons _ _), by simp; omega⟩
      · cases h

theorem fnP_noCase {s : Str} {f : PFct} {r : Str} (h : fnP s = some (f, r)) : noCase f.text s = some r := by
  unfold fnP at h
  obtain ⟨g, -, hg⟩ := List.exists_of_findSome?_eq_some h
  rw [Option.map_eq_some_iff] at hg
  obtain ⟨r', h1, h2⟩ := hg
  cases h2
  exact h1

theorem PFct.text_pos (f : PFct) : 0 < f.text.length := by cases f <;> decide

theorem subscriptP_length {s u r : Str} (h : subscriptP s = some (u, r)) : r.length < s.length := by
  cases s with
  | nil => cases h
  | cons c s =>
    simp only [subscriptP] at h
    have hd := (List.dropWhile_suffix (l := s) isAlnumC).length_le
    split at h
    · split at h
      · cases h
      · split at h
        · rename_i x r' hr
          split at h
          · cases h
            rw [hr] at hd
            simp only [List.length_cons] at hd ⊢
            omega
          · cases h
        · cases h
    · split at h
      · cases h
        simp
      · cases h

theorem symbolP_length {s : Str} {n : Name} {r : Str} (h : symbolP s = some (n, r)) : r.length < s.length := by
  cases s with
  | nil => cases h
  | cons c s =>
    simp only [symbolP] at h
    have hd := (List.dropWhile_suffix (l := s) isAlnumC).length_le
    split at h
    · split at h
      · rename_i x r' hr
        rw [hr] at hd
        simp only [List.length_cons] at hd ⊢
        split at h
        · split at h
          · rename_i u r'' hu
            cases h
            have := subscriptP_length hu
            omega
          · cases h
            simp only [List.length_cons]
            omega
        · cases h
          simp only [List.length_cons]
          omega
      · cases h
        simp
    · cases h

theorem signP_length (s : Str) : (signP s).2.length ≤ s.length := by
  cases s with
  | nil => simp [signP]
  | cons c s =>
    simp only [signP]
    split <;> simp

theorem expP_length (s : Str) : (expP s).2.length ≤ s.length := by
  cases s with
  | nil => simp [expP]
  | cons x r =>
    simp only [expP]
    have h1 := (List.dropWhile_suffix (l := (signP r).2) isDigitC).length_le
    have h2 := signP_length r
    split
    · split <;> simp <;> omega
    · simp

theorem realP_length {s : Str} {d : D} {r : Str} (h : realP conv s = some (d, r)) : r.length < s.length := by
  unfold realP at h
  have hs := congrArg List.length (List.takeWhile_append_dropWhile (p := isDigitC) (l := s))
  rw [List.length_append] at hs
  simp only at h
  split at h
  · cases h
  · rename_i x r' hr
    rw [hr, List.length_cons] at hs
    split at h
    · split at h
      · cases h
      · rw [Option.map_eq_some_iff] at h
        obtain ⟨a, -, ha⟩ := h
        cases ha
        have h1 := expP_length (r'.dropWhile isDigitC)
        have h2 := (List.dropWhile_suffix (l := r') isDigitC).length_le
        omega
    · split at h
      · cases h
      · rename_i hne
        have hp : 0 < (s.takeWhile isDigitC).length := List.length_pos_iff.2 hne
        split at h
        · rw [Option.map_eq_some_iff] at h
          obtain ⟨a, -, ha⟩ := h
          cases ha
          have h1 := expP_length (x :: r')
          simp only [List.length_cons] at h1
          omega
        · cases h

theorem integerP_length {s t r : Str} (h : integerP s = some (t, r)) : r.length < s.length := by
  unfold integerP at h
  have hs := congrArg List.length (List.takeWhile_append_dropWhile (p := isDigitC) (l := s))
  rw [List.length_append] at hs
  split at h
  · cases h
  · rename_i hne
    cases h
    have hp : 0 < (s.takeWhile isDigitC).length := List.length_pos_iff.2 hne
    omega

theorem scalarP_length {s : Str} {a} {r : Str} (h : scalarP conv s = some (a, some r)) :
    r.length < s.length := by
  have h0 := (skipS_suffix s).length_le
  unfold scalarP at h
  simp only at h
  refine lt_of_lt_of_le ?_ h0
  split at h
  · cases h
    rename_i h1
    have := (noCase_suffix h1).2
    simp at this
    omega
  · split at h
    · cases h
      rename_i h1
      have := (noCase_suffix h1).2
      simp at this
      omega
    · split at h
      · cases h
        rename_i h1
        exact symbolP_length h1
      · split at h
        · cases h
          rename_i h1
          exact realP_length h1
        · split at h
          · cases h
            rename_i h1
            exact integerP_length h1
          · cases h

theorem scalarP_some (s : Str) : ∃ x, scalarP conv s = some x := by
  unfold scalarP
  simp only
  repeat' split
  all_goals exact ⟨_, rfl⟩

/-! ## The fuel is enough -/

/-- `p` has a result, and after a match less than `k` characters remain. -/
def PRes.Fits (k : Nat) (p : PRes D) : Prop := ∃ a o, p = some (a, o) ∧ ∀ r, o = some r → r.length < k

theorem PRes.Fits.seq {j k : Nat} {p : PRes D} {q : Str → PRes D} (hp : p.Fits j)
    (hq : ∀ r : Str, r.length < j → (q r).Fits k) : (p.seq q).Fits k := by
  obtain ⟨a, _ | r, rfl, h⟩ := hp
  · exact ⟨a, none, rfl, by simp⟩
  · obtain ⟨b, o, h1, h2⟩ := hq r (h r rfl)
    exact ⟨a ++ b, o, by simp [PRes.seq, PRes.pre, h1], h2⟩

theorem PRes.Fits.alt {k : Nat} {p q : PRes D} (hp : p.Fits k) (hq : q.Fits k) : (p.alt q).Fits k := by
  obtain ⟨a, _ | r, rfl, h⟩ := hp
  · obtain ⟨b, o, h1, h2⟩ := hq
    exact ⟨a ++ b, o, by simp [PRes.alt, PRes.pre, h1], h2⟩
  · exact ⟨a, some r, rfl, h⟩

theorem PRes.Fits.act {k : Nat} {p : PRes D} (hp : p.Fits k) (x : Act D) : (p.act x).Fits k := by
  obtain ⟨a, _ | r, rfl, h⟩ := hp
  · exact ⟨a, none, rfl, h⟩
  · exact ⟨a ++ [x], some r, rfl, h⟩

theorem PRes.Fits.star {j k : Nat} {p : PRes D} {q : Str → PRes D} {s : Str} (hp : p.Fits j)
    (hq : ∀ r : Str, r.length < j → (q r).Fits k) (hs : s.length < k) : (p.star q s).Fits k := by
  obtain ⟨a, _ | r, rfl, h⟩ := hp
  · exact ⟨a, some s, rfl, by simpa using hs⟩
  · obtain ⟨b, o, h1, h2⟩ := hq r (h r rfl)
    exact ⟨a ++ b, o, by simp [PRes.star, PRes.pre, h1], h2⟩

theorem litC_fits (c : Char) (s : Str) : (ofOpt (litC c s) : PRes D).Fits s.length :=
  ⟨[], _, rfl, fun _ h => litC_length h⟩

theorem PRes.Fits.mono {j k : Nat} {p : PRes D} (hp : p.Fits j) (h : j ≤ k) : p.Fits k := by
  obtain ⟨a, o, h1, h2⟩ := hp
  exact ⟨a, o, h1, fun r hr => (h2 r hr).trans_le h⟩

/-- The depth below a rule before input is consumed. -/
def PRule.rank : PRule → Nat
  | expression => 6
  | expressionLoop | summand => 5
  | summandLoop | signed => 4
  | factor => 3
  | factorLoop | operand => 2

/-- A loop may match nothing. -/
def PRule.slack : PRule → Nat
  | expressionLoop | summandLoop | factorLoop => 1
  | _ => 0

theorem noFuel_fits {s : Str} : (ofOpt none : PRes D).Fits s.length := ⟨[], none, rfl, by simp⟩

theorem peg_fits (n : Nat) : ∀ (R : PRule) (s : Str), 8 * s.length + R.rank ≤ n →
    (peg conv n R s).Fits (s.length + R.slack) := by
  induction n with
  | zero =>
    intro R s h
    cases R <;> simp [PRule.rank] at h
  | succ n ih =>
    have he : ∀ (R : PRule) (s r : Str), r.length < s.length → 8 * s.length ≤ n + 1 →
        (peg conv n R r).Fits (r.length + R.slack) := by
      intro R s r hr hs
      refine ih R r ?_
      have : R.rank ≤ 6 := by cases R <;> simp [PRule.rank]
      omega
    intro R s h
    cases R <;> rw [peg] <;> simp only [PRule.rank, PRule.slack, Nat.add_zero] at h ⊢
    · refine PRes.Fits.seq (j := s.length + 1) (((litC_fits '+' s).mono (Nat.le_succ _)).alt
        ⟨[], some s, rfl, by simp⟩) fun r hr => ?_
      refine PRes.Fits.seq (j := s.length) ?_ fun r' hr' => ?_
      · refine (ih .summand r (by simp [PRule.rank]; omega)).mono ?_
        simp [PRule.slack]; omega
      · refine (he .expressionLoop s r' hr' (by omega)).mono ?_
        simp [PRule.slack]; omega
    · refine PRes.Fits.star (j := s.length) (((litC_fits '+' s).seq fun r hr => ?_).act _ |>.alt
        (((litC_fits '-' s).seq fun r hr => ?_).act _)) (fun r hr => ?_) (by omega)
      · exact (he .summand s r hr (by omega)).mono (by simp [PRule.slack]; omega)
      · exact (he .summand s r hr (by omega)).mono (by simp [PRule.slack]; omega)
      · exact (he .expressionLoop s r hr (by omega)).mono (by simp [PRule.slack]; omega)
    · refine PRes.Fits.seq (j := s.length) ?_ fun r' hr' => ?_
      · exact ih .signed s (by simp [PRule.rank]; omega)
      · exact (he .summandLoop s r' hr' (by omega)).mono (by simp [PRule.slack]; omega)
    · refine PRes.Fits.star (j := s.length) (((litC_fits '*' s).seq fun r hr => ?_).act _ |>.alt
        (((litC_fits '/' s).seq fun r hr => ?_).act _)) (fun r hr => ?_) (by omega)
      · exact (he .signed s r hr (by omega)).mono (by simp [PRule.slack]; omega)
      · exact (he .signed s r hr (by omega)).mono (by simp [PRule.slack]; omega)
      · exact (he .summandLoop s r hr (by omega)).mono (by simp [PRule.slack]; omega)
    · refine PRes.Fits.alt (ih .factor s (by simp [PRule.rank]; omega)) ?_
      refine (litC_fits '-' s).seq fun r hr => PRes.Fits.act ?_ _
      exact (he .factor s r hr (by omega)).mono (by simp [PRule.slack]; omega)
    · refine PRes.Fits.seq (j := s.length) ?_ fun r' hr' => ?_
      · exact ih .operand s (by simp [PRule.rank]; omega)
      · exact (he .factorLoop s r' hr' (by omega)).mono (by simp [PRule.slack]; omega)
    · refine PRes.Fits.star (j := s.length) ((litC_fits '^' s).seq fun r hr => PRes.Fits.act ?_ _)
        (fun r hr => ?_) (by omega)
      · exact (he .factor s r hr (by omega)).mono (by simp [PRule.slack]; omega)
      · exact (he .factorLoop s r hr (by omega)).mono (by simp [PRule.slack]; omega)
    · have hexp : ∀ r : Str, r.length < s.length → (peg conv n .expression r).Fits s.length :=
        fun r hr => (he .expression s r hr (by omega)).mono (by simp [PRule.slack]; omega)
      have hclose : ∀ (c : Char) (r : Str), r.length < s.length → (ofOpt (litC c r) : PRes D).Fits s.length :=
        fun c r hr => (litC_fits c r).mono (by omega)
      refine PRes.Fits.alt ?_ (PRes.Fits.alt ?_ (PRes.Fits.alt ?_ ?_))
      · unfold oneArgP
        split
        · exact noFuel_fits
        · rename_i f r hf
          have h1 := (noCase_suffix (fnP_noCase hf)).2
          have h2 := f.text_pos
          have h3 := (skipS_suffix s).length_le
          have h4 : r.length < s.length := by omega
          exact ((hclose _ r h4).seq fun r hr => (hexp r hr).seq fun r hr => hclose _ r hr).act _
      · unfold twoArgP
        split
        · exact noFuel_fits
        · rename_i r hf
          have h1 := (noCase_suffix hf).2
          have h3 := (skipS_suffix s).length_le
          simp only [List.length_cons] at h1
          have h4 : r.length < s.length := by omega
          exact ((hclose _ r h4).seq fun r hr => (hexp r hr).seq fun r hr =>
            (hclose _ r hr).seq fun r hr => (hexp r hr).seq fun r hr => hclose _ r hr).act _
      · obtain ⟨x, hx⟩ := scalarP_some (conv := conv) s
        refine ⟨x.1, x.2, hx, fun r hr => scalarP_length (conv := conv) (a := x.1) ?_⟩
        rw [hx, ← hr]
      · exact (litC_fits '(' s).seq fun r hr => (hexp r hr).seq fun r hr => hclose _ r hr

/-- The fuel of parseFrom is enough. -/
theorem peg_some (s : Str) : ∃ a o, peg conv (parseFuel s) .expression s = some (a, o) := by
  obtain ⟨a, o, h, -⟩ := peg_fits (conv := conv) (parseFuel s) .expression s
    (by simp only [parseFuel, PRule.rank]; omega)
  exact ⟨a, o, h⟩

/-! ## The stack does not run empty -/

/-- The height of the stack after the actions, nothing if it does not suffice. -/
def height : List (Act D) → Nat → Option Nat
  | [], k => some k
  | .pushPi :: l, k | .pushEuler :: l, k | .pushSymbol _ :: l, k | .pushDouble _ :: l, k
  | .pushInteger _ :: l, k => height l (k + 1)
  | .toFunction _ :: l, k | .flipSign :: l, k => if 1 ≤ k then height l k else none
  | .toAtan2 :: l, k | .toPower :: l, k | .toProduct :: l, k | .toQuotient :: l, k | .toSum :: l, k
  | .toDifference :: l, k => if 2 ≤ k then height l (k - 1) else none

theorem height_append (a b : List (Act D)) (k : Nat) : height (a ++ b) k = (height a k).bind (height b) := by
  induction a generalizing k with
  | nil => rfl
  | cons x a ih => cases x <;> simp only [List.cons_append, height] <;> first | exact ih _ | (split <;> first | exact ih _ | rfl)

/-- The actions work on a stack of height `m` or more, which does not shrink, and after a match it has
grown by `g` at least. -/
def PRes.Grows (m g : Nat) (p : PRes D) : Prop :=
  ∀ a o, p = some (a, o) → ∀ k, m ≤ k →
    ∃ k', height a k = some k' ∧ k ≤ k' ∧ (o.isSome → k + g ≤ k')

theorem PRes.Grows.seq {m g h : Nat} {p : PRes D} {q : Str → PRes D} (hp : p.Grows m g)
    (hq : ∀ r, (q r).Grows (m + g) h) : (p.seq q).Grows m (g + h) := by
  intro a o he k hk
  rcases p with _ | ⟨b, _ | r⟩
  · cases he
  · cases he
    obtain ⟨k', h1, h2, -⟩ := hp a none rfl k hk
    exact ⟨k', h1, h2, by simp⟩
  · obtain ⟨k1, h1, h2, h3⟩ := hp b (some r) rfl k hk
    simp only [PRes.seq, PRes.pre] at he
    rw [Option.map_eq_some_iff] at he
    obtain ⟨⟨c, o'⟩, hc, hco⟩ := he
    cases hco
    have h3' := h3 rfl
    obtain ⟨k2, h4, h5, h6⟩ := hq r c o' hc k1 (by omega)
    refine ⟨k2, by rw [height_append, h1]; exact h4, by omega, fun ho => ?_⟩
    have := h6 ho
    omega

theorem PRes.Grows.alt {m g : Nat} {p q : PRes D} (hp : p.Grows m g) (hq : q.Grows m g) :
    (p.alt q).Grows m g := by
  intro a o he k hk
  rcases p with _ | ⟨b, _ | r⟩
  · cases he
  · obtain ⟨k1, h1, h2, -⟩ := hp b none rfl k hk
    simp only [PRes.alt, PRes.pre] at he
    rw [Option.map_eq_some_iff] at he
    obtain ⟨⟨c, o'⟩, hc, hco⟩ := he
    cases hco
    obtain ⟨k2, h4, h5, h6⟩ := hq c o' hc k1 (by omega)
    refine ⟨k2, by rw [height_append, h1]; exact h4, by omega, fun ho => ?_⟩
    have := h6 ho
    omega
  · cases he
    exact hp a (some r) rfl k hk

theorem PRes.Grows.star {m g : Nat} {p : PRes D} {q : Str → PRes D} {s : Str} (hp : p.Grows m g)
    (hq : ∀ r, (q r).Grows m 0) : (p.star q s).Grows m 0 := by
  intro a o he k hk
  rcases p with _ | ⟨b, _ | r⟩
  · cases he
  · cases he
    obtain ⟨k', h1, h2, -⟩ := hp a none rfl k hk
    exact ⟨k', h1, h2, fun _ => h2⟩
  · obtain ⟨k1, h1, h2, h3⟩ := hp b (some r) rfl k hk
    simp only [PRes.star, PRes.pre] at he
    rw [Option.map_eq_some_iff] at he
    obtain ⟨⟨c, o'⟩, hc, hco⟩ := he
    cases hco
    have h3' := h3 rfl
    obtain ⟨k2, h4, h5, h6⟩ := hq r c o' hc k1 (by omega)
    exact ⟨k2, by rw [height_append, h1]; exact h4, by omega, fun ho => by omega⟩

theorem PRes.Grows.act1 {m g : Nat} {p : PRes D} (hp : p.Grows m g) (hg : 1 ≤ m + g) {x : Act D}
    (hx : ∀ k, 1 ≤ k → height [x] k = some k) : (p.act x).Grows m g := by
  intro a o he k hk
  rcases p with _ | ⟨b, _ | r⟩
  · cases he
  · cases he
    exact hp a none rfl k hk
  · cases he
    obtain ⟨k1, h1, h2, h3⟩ := hp b (some r) rfl k hk
    have h3' := h3 rfl
    exact ⟨k1, by rw [height_append, h1]; exact hx k1 (by omega), h2, h3⟩

theorem PRes.Grows.act2 {m g : Nat} {p : PRes D} (hp : p.Grows m (g + 1)) (hg : 1 ≤ m + g) {x : Act D}
    (hx : ∀ k, 2 ≤ k → height [x] k = some (k - 1)) : (p.act x).Grows m g := by
  intro a o he k hk
  rcases p with _ | ⟨b, _ | r⟩
  · cases he
  · cases he
    obtain ⟨k', h1, h2, -⟩ := hp a none rfl k hk
    exact ⟨k', h1, h2, by simp⟩
  · cases he
    obtain ⟨k1, h1, h2, h3⟩ := hp b (some r) rfl k hk
    have h3' := h3 rfl
    exact ⟨k1 - 1, by rw [height_append, h1]; exact hx k1 (by omega), by omega, fun _ => by omega⟩

theorem ofOpt_grows (o : Option Str) (m : Nat) : (ofOpt o : PRes D).Grows m 0 := by
  intro a o' he k hk
  cases he
  exact ⟨k, rfl, le_refl _, fun _ => le_refl _⟩

theorem PRes.Grows.weaken {m m' g : Nat} {p : PRes D} (hp : p.Grows m g) (h : m ≤ m') : p.Grows m' g :=
  fun a o he k hk => hp a o he k (h.trans hk)

theorem fail_grows (m g : Nat) : (ofOpt none : PRes D).Grows m g := by
  intro a o' he k hk
  cases he
  exact ⟨k, rfl, le_refl _, by simp⟩

theorem scalarP_grows (s : Str) : (scalarP conv s).Grows 0 1 := by
  intro a o he k _
  unfold scalarP at he
  simp only at he
  split at he
  · cases he; exact ⟨k + 1, rfl, by omega, by simp⟩
  · split at he
    · cases he; exact ⟨k + 1, rfl, by omega, by simp⟩
    · split at he
      · cases he; exact ⟨k + 1, rfl, by omega, by simp⟩
      · split at he
        · cases he; exact ⟨k + 1, rfl, by omega, by simp⟩
        · split at he
          · cases he; exact ⟨k + 1, rfl, by omega, by simp⟩
          · cases he; exact ⟨k, rfl, by omega, by simp⟩

/-- A loop needs an operand to begin with. -/
def PRule.need : PRule → Nat
  | expressionLoop | summandLoop | factorLoop => 1
  | _ => 0

/-- Other rules push an operand. -/
def PRule.gain : PRule → Nat
  | expressionLoop | summandLoop | factorLoop => 0
  | _ => 1

theorem peg_grows (n : Nat) : ∀ (R : PRule) (s : Str), (peg conv n R s).Grows R.need R.gain := by
  induction n with
  | zero =>
    intro R s a o he
    cases he
  | succ n ih =>
    have ih0 : ∀ (R : PRule) (s : Str) (m : Nat), R.need ≤ m → (peg conv n R s).Grows m R.gain :=
      fun R s m hm => (ih R s).weaken hm
    intro R s
    cases R <;> rw [peg] <;> simp only [PRule.need, PRule.gain]
    · exact ((ofOpt_grows _ 0).alt (ofOpt_grows _ 0)).seq (h := 1) fun r =>
        (ih0 .summand r _ (by simp [PRule.need])).seq (h := 0) fun r => ih0 .expressionLoop r _ (by simp [PRule.need, PRule.gain])
    · refine PRes.Grows.star (g := 0) (PRes.Grows.alt ?_ ?_) fun r => ih .expressionLoop r
      · exact PRes.Grows.act2 ((ofOpt_grows _ 1).seq fun r => ih0 .summand r _ (by simp [PRule.need])) (by omega)
          (fun k hk => by simp [height, hk])
      · exact PRes.Grows.act2 ((ofOpt_grows _ 1).seq fun r => ih0 .summand r _ (by simp [PRule.need])) (by omega)
          (fun k hk => by simp [height, hk])
    · exact (ih .signed s).seq (h := 0) fun r => ih0 .summandLoop r _ (by simp [PRule.need, PRule.gain])
    · refine PRes.Grows.star (g := 0) (PRes.Grows.alt ?_ ?_) fun r => ih .summandLoop r
      · exact PRes.Grows.act2 ((ofOpt_grows _ 1).seq fun r => ih0 .signed r _ (by simp [PRule.need])) (by omega)
          (fun k hk => by simp [height, hk])
      · exact PRes.Grows.act2 ((ofOpt_grows _ 1).seq fun r => ih0 .signed r _ (by simp [PRule.need])) (by omega)
          (fun k hk => by simp [height, hk])
    · refine PRes.Grows.alt (ih .factor s) ?_
      exact (ofOpt_grows _ 0).seq (g := 0) (h := 1) fun r => PRes.Grows.act1 (ih .factor r) (by simp [PRule.need, PRule.gain])
        (fun k hk => by simp [height, hk])
    · exact (ih .operand s).seq (h := 0) fun r => ih0 .factorLoop r _ (by simp [PRule.need, PRule.gain])
    · refine PRes.Grows.star (g := 0) ?_ fun r => ih .factorLoop r
      refine (ofOpt_grows _ 1).seq (g := 0) (h := 0) fun r => PRes.Grows.act2 (ih0 .factor r _ (by simp [PRule.need])) (by omega)
          (fun k hk => by simp [height, hk])
    · have hexp : ∀ (r : Str) (m : Nat), (peg conv n .expression r).Grows m 1 :=
        fun r m => ih0 .expression r m (by simp [PRule.need])
      refine PRes.Grows.alt ?_ (PRes.Grows.alt ?_ (PRes.Grows.alt (scalarP_grows s) ?_))
      · unfold oneArgP
        split
        · exact fail_grows _ _
        · exact PRes.Grows.act1 ((ofOpt_grows _ 0).seq (g := 0) (h := 1) fun r => (hexp r _).seq (h := 0) fun r =>
            ofOpt_grows _ _) (by omega) (fun k hk => by simp [height, hk])
      · unfold twoArgP
        split
        · exact fail_grows _ _
        · exact PRes.Grows.act2 ((ofOpt_grows _ 0).seq (g := 0) (h := 2) fun r => (hexp r _).seq (h := 1) fun r =>
            (ofOpt_grows _ _).seq (g := 0) (h := 1) fun r => (hexp r _).seq (h := 0) fun r =>
            ofOpt_grows _ _) (by omega) (fun k hk => by simp [height, hk])
      · exact (ofOpt_grows _ 0).seq (g := 0) (h := 1) fun r => (hexp r _).seq (h := 0) fun r => ofOpt_grows _ _

/-- On a stack that is high enough, the outcome of an empty stack does not matter. -/
theorem exec_under [Flt D] (E : Eng D) (u v : Err) (acts : List (Act D)) (st : List (Expr D)) (k : Nat)
    (h : height acts st.length = some k) : exec E u acts st = exec E v acts st := by
  induction acts generalizing st with
  | nil => rfl
  | cons x acts ih =>
    have key : ∀ m : M D (Expr D), ∀ st' : List (Expr D), height acts (st'.length + 1) = some k →
        ((do let r ← m; pure (r :: st') : M D (List (Expr D))) >>= exec E u acts) =
          ((do let r ← m; pure (r :: st') : M D (List (Expr D))) >>= exec E v acts) := by
      intro m st' hk
      rw [bind_assoc, bind_assoc]
      congr 1
      funext r
      rw [pure_bind, pure_bind]
      exact ih (r :: st') (by simpa using hk)
    simp only [exec]
    cases x
    case pushInteger s =>
      simp only [Act.run]
      rw [bind_assoc, bind_assoc]
      congr 1
      funext n
      rw [pure_bind, pure_bind]
      exact ih (_ :: st) (by simpa [height] using h)
    case toFunction f =>
      cases st with
      | nil => simp [height] at h
      | cons a st => exact key _ _ (by simpa [height] using h)
    case flipSign =>
      cases st with
      | nil => simp [height] at h
      | cons a st => exact key _ _ (by simpa [height] using h)
    case toQuotient =>
      match st with
      | [] => simp [height] at h
      | [a] => simp [height] at h
      | a :: b :: st =>
        simp only [Act.run]
        rw [bind_assoc, bind_assoc]
        congr 1
        funext n
        exact key _ _ (by simpa [height] using h)
    case toDifference =>
      match st with
      | [] => simp [height] at h
      | [a] => simp [height] at h
      | a :: b :: st =>
        simp only [Act.run]
        rw [bind_assoc, bind_assoc]
        congr 1
        funext n
        exact key _ _ (by simpa [height] using h)
    case pushPi =>
      simp only [Act.run]
      rw [pure_bind, pure_bind]
      exact ih (_ :: st) (by simpa [height] using h)
    case pushEuler =>
      simp only [Act.run]
      rw [pure_bind, pure_bind]
      exact ih (_ :: st) (by simpa [height] using h)
    case pushSymbol n =>
      simp only [Act.run]
      rw [pure_bind, pure_bind]
      exact ih (_ :: st) (by simpa [height] using h)
    case pushDouble n =>
      simp only [Act.run]
      rw [pure_bind, pure_bind]
      exact ih (_ :: st) (by simpa [height] using h)
    all_goals
      match st with
      | [] => simp [height] at h
      | [a] => simp [height] at h
      | a :: b :: st => exact key _ _ (by simpa [height] using h)

end Tsym
