import Verif.OrderThm
import Verif.PolySym

set_option autoImplicit false
set_option linter.unusedSectionVars false
set_option linter.unusedSimpArgs false

/-!
# The order of operands is transitive
-/

namespace Tsym

namespace Expr

variable {D : Type} [Flt D] [LawfulFlt D]

/-- Specification: sums and products have at least two operands, everywhere in the expression. -/
def Wide (e : Expr D) : Prop := ∀ l, (Occurs (sum l) e ∨ Occurs (prod l) e) → 2 ≤ l.length

/-- Specification: no power with the exponent one, anywhere in the expression. -/
def NoFirst (e : Expr D) : Prop := ∀ b, ¬ Occurs (pow b one) e

/-- What is needed for the order. -/
structure Good (e : Expr D) : Prop where
  ord : Orderable e
  exact : Exact e
  wide : Wide e
  nf : NoFirst e

theorem Good.op {o e : Expr D} (h : Good e) (ho : o ∈ operands e) : Good o :=
  ⟨h.ord.op ho, fun x hx => h.exact x (.op ho hx), fun l hl => h.wide l (hl.imp (.op ho) (.op ho)), fun b hb => h.nf b (.op ho hb)⟩

theorem Good.of_ops {e : Expr D} (h1 : e ≠ undef) (h2 : ∀ u v, e ≠ atan2 u v) (h3 : ∀ s, e = sym s → s.id.Ok)
    (h4 : ∀ d, e ≠ num (.dbl d)) (h5 : ∀ l, (e = sum l ∨ e = prod l) → 2 ≤ l.length) (h6 : ∀ b, e ≠ pow b one)
    (h : ∀ o ∈ operands e, Good o) : Good e := by
  refine ⟨fun x hx => ?_, fun x hx => ?_, fun l hl => ?_, fun b hb => ?_⟩
  · rcases occurs_iff.1 hx with rfl | ⟨o, ho, hx⟩
    · exact ⟨h1, h2, h3⟩
    · exact (h o ho).ord x hx
  · rcases occurs_iff.1 hx with rfl | ⟨o, ho, hx⟩
    · first | exact ⟨h1, h4⟩ | exact ⟨h4, h1⟩
    · exact (h o ho).exact x hx
  · rcases hl with hx | hx <;> rcases occurs_iff.1 hx with hx | ⟨o, ho, hx⟩
    · exact h5 l (.inl hx.symm)
    · exact (h o ho).wide l (.inl hx)
    · exact h5 l (.inr hx.symm)
    · exact (h o ho).wide l (.inr hx)
  · rcases occurs_iff.1 hb with hx | ⟨o, ho, hx⟩
    · exact h6 b hx.symm
    · exact (h o ho).nf b hx

/-- `a` comes before `b`. -/
def L (a b : Expr D) : Bool := doPermute b a

theorem Good.eq_iff {a b : Expr D} (ha : Good a) (hb : Good b) : isEqual a b = true ↔ a = b := isEqual_eq a ha.exact b hb.exact

theorem Good.tri {a b : Expr D} (ha : Good a) (hb : Good b) : (a = b ∧ L a b = false ∧ L b a = false) ∨ (a ≠ b ∧ L a b = !L b a) := by
  rcases trich a b ha.ord hb.ord with ⟨h1, h2, h3, h4⟩ | ⟨h1, h2, h3⟩
  · left; exact ⟨(ha.eq_iff hb).1 h1, h4, h3⟩
  · right
    refine ⟨fun h => ?_, ?_⟩
    · rw [(ha.eq_iff hb).2 h] at h1; cases h1
    · unfold L; rw [h3, Bool.not_not]

theorem Good.irrefl {a : Expr D} (ha : Good a) : L a a = false := by
  rcases ha.tri ha with h | h
  · exact h.2.1
  · exact absurd rfl h.1

theorem Good.asymm {a b : Expr D} (ha : Good a) (hb : Good b) (h : L a b = true) : L b a = false := by
  rcases ha.tri hb with ⟨_, h1, h2⟩ | ⟨_, h1⟩
  · exact h2
  · rw [h] at h1; simpa using h1.symm

theorem Good.total {a b : Expr D} (ha : Good a) (hb : Good b) (h : L a b = false) (h' : a ≠ b) : L b a = true := by
  rcases ha.tri hb with ⟨h1, _⟩ | ⟨_, h1⟩
  · exact absurd h1 h'
  · rw [h] at h1; simpa using h1.symm

theorem Good.isEqual_false {a b : Expr D} (ha : Good a) (hb : Good b) (h : a ≠ b) : isEqual a b = false := by
  rw [← Bool.not_eq_true, ha.eq_iff hb]; exact h

/-- The comparison of the elements of lists is the order. -/
theorem Good.cmp {x y : Expr D} (hx : Good x) (hy : Good y) : (!isEqual x y && !doPermute x y) = L x y := by
  rcases hx.tri hy with ⟨rfl, h1, h2⟩ | ⟨h1, h2⟩
  · rw [(hx.eq_iff hx).2 rfl, h1]; rfl
  · rw [hx.isEqual_false hy h1, h2]; rfl

/-- The order is transitive for these expressions. -/
def Tr (a b c : Expr D) : Prop := L a b = true → L b c = true → L a c = true

theorem lex_trans : ∀ {l m n : List (Expr D)}, (∀ x ∈ l, Good x) → (∀ x ∈ m, Good x) → (∀ x ∈ n, Good x) →
    (∀ x ∈ l, ∀ y ∈ m, ∀ z ∈ n, Tr x y z) → lexCmp L l m = true → lexCmp L m n = true → lexCmp L l n = true := by
  intro l
  induction l with
  | nil =>
    intro m n _ _ _ _ h1 h2
    cases n with
    | nil => simp [lexCmp] at h2
    | cons z n => rfl
  | cons x l ih =>
    intro m n gl gm gn ht h1 h2
    cases m with
    | nil => simp [lexCmp] at h1
    | cons y m =>
      cases n with
      | nil => simp [lexCmp] at h2
      | cons z n =>
        have gx := gl x (by simp)
        have gy := gm y (by simp)
        have gz := gn z (by simp)
        simp only [lexCmp] at h1 h2 ⊢
        by_cases hxy : x = y
        · subst hxy
          rw [gx.irrefl] at h1
          simp only [Bool.false_eq_true, if_false] at h1
          by_cases hyz : x = z
          · subst hyz
            rw [gx.irrefl] at h2 ⊢
            simp only [Bool.false_eq_true, if_false] at h2 ⊢
            exact ih (fun a ha => gl a (by simp [ha])) (fun a ha => gm a (by simp [ha])) (fun a ha => gn a (by simp [ha]))
              (fun a ha b hb c hc => ht a (by simp [ha]) b (by simp [hb]) c (by simp [hc])) h1 h2
          · by_cases h3 : L x z = true
            · simp [h3]
            · simp only [Bool.not_eq_true] at h3
              rw [h3, gx.total gz h3 hyz] at h2
              simp at h2
        · have h3 : L x y = true := by
            by_contra h3
            simp only [Bool.not_eq_true] at h3
            rw [h3, gx.total gy h3 hxy] at h1
            simp at h1
          by_cases hyz : y = z
          · subst hyz; simp [h3]
          · have h4 : L y z = true := by
              by_contra h4
              simp only [Bool.not_eq_true] at h4
              rw [h4, gy.total gz h4 hyz] at h2
              simp at h2
            rw [if_pos (ht x (by simp) y (by simp) z (by simp) h3 h4)]

/-- Everything but numbers and constants. -/
def big : Expr D → Bool
  | num _ => false
  | cst _ => false
  | _ => true

/-- Seen as a product. -/
def viewP : Expr D → List (Expr D)
  | prod l => l
  | e => [e]

/-- Seen as a sum. -/
def viewS : Expr D → List (Expr D)
  | sum l => l
  | e => [e]

theorem permLists_L {l m : List (Expr D)} (hl : ∀ x ∈ l, Good x) (hm : ∀ x ∈ m, Good x) :
    permLists doPermute m l = lexCmp L l.reverse m.reverse := by
  unfold permLists
  refine lexCmp_congr fun x hx y hy => ?_
  rw [List.mem_reverse] at hx hy
  exact ⟨(hl x hx).cmp (hm y hy), (hm y hy).cmp (hl x hx)⟩

theorem permLast_L {l : List (Expr D)} {r : Expr D} (hl : ∀ x ∈ l, Good x) (hr : Good r) (h2 : 2 ≤ l.length) :
    permLast doPermute l r = lexCmp L [r] l.reverse ∧ (!permLast doPermute l r) = lexCmp L l.reverse [r] := by
  have : ∃ x y m, l.reverse = x :: y :: m := by
    have : l.reverse.length = l.length := List.length_reverse
    match hr : l.reverse with
    | [] => rw [hr] at this; simp at this; omega
    | [x] => rw [hr] at this; simp at this; omega
    | x :: y :: m => exact ⟨x, y, m, rfl⟩
  obtain ⟨x, y, m, e⟩ := this
  have hlast : l.getLast? = some x := by rw [← List.head?_reverse, e]; rfl
  have gx : Good x := hl x (by rw [← List.mem_reverse, e]; simp)
  unfold permLast
  rw [hlast, e]
  simp only [lexCmp]
  by_cases h : x = r
  · subst h
    rw [(gx.eq_iff gx).2 rfl, gx.irrefl]
    simp [lexCmp]
  · rw [gx.isEqual_false hr h]
    simp only [Bool.false_eq_true, if_false]
    have e1 : doPermute x r = L r x := rfl
    rw [e1]
    by_cases h1 : L r x = true
    · have := hr.asymm gx h1
      simp [h1, this]
    · simp only [Bool.not_eq_true] at h1
      have := hr.total gx h1 (Ne.symm h)
      simp [h1, this]

theorem lex_single (a b : Expr D) : lexCmp L [a] [b] = L a b := by
  simp only [lexCmp]
  cases L a b <;> simp

theorem L_eq (a b : Expr D) : L a b = permStep doPermute b a := by unfold L; rw [doPermute_eq]

theorem L_viewP {a b : Expr D} (ha : Good a) (hb : Good b) (ba : big a = true) (bb : big b = true) :
    L a b = lexCmp L (viewP a).reverse (viewP b).reverse := by
  have ua := (ha.ord a .refl).1
  have ub := (hb.ord b .refl).1
  have va := (ha.ord a .refl).2.1
  have vb := (hb.ord b .refl).2.1
  by_cases pa : ∃ l, a = prod l
  · obtain ⟨l, rfl⟩ := pa
    have gl : ∀ x ∈ l, Good x := fun x hx => ha.op (by simpa [operands] using hx)
    have wl := ha.wide l (.inr .refl)
    by_cases pb : ∃ m, b = prod m
    · obtain ⟨m, rfl⟩ := pb
      have gm : ∀ x ∈ m, Good x := fun x hx => hb.op (by simpa [operands] using hx)
      rw [L_eq]
      simp only [permStep, permSame, viewP]
      exact permLists_L gl gm
    · have e : viewP b = [b] := by cases b <;> simp_all [viewP]
      rw [e, List.reverse_singleton, viewP, ← (permLast_L gl hb wl).2, L_eq]
      cases b <;> simp_all [permStep, permSame, permDiff, big]
  · have e1 : viewP a = [a] := by cases a <;> simp_all [viewP]
    by_cases pb : ∃ m, b = prod m
    · obtain ⟨m, rfl⟩ := pb
      have gm : ∀ x ∈ m, Good x := fun x hx => hb.op (by simpa [operands] using hx)
      have wm := hb.wide m (.inr .refl)
      rw [e1, List.reverse_singleton, viewP, ← (permLast_L gm ha wm).1, L_eq]
      cases a <;> simp_all [permStep, permSame, permDiff, big]
    · have e : viewP b = [b] := by cases b <;> simp_all [viewP]
      rw [e, e1, List.reverse_singleton, List.reverse_singleton, lex_single]

theorem L_viewS {a b : Expr D} (ha : Good a) (hb : Good b) (ba : big a = true) (bb : big b = true)
    (pa : ∀ l, a ≠ prod l) (pb : ∀ l, b ≠ prod l) (qa : ∀ x y, a ≠ pow x y) (qb : ∀ x y, b ≠ pow x y) :
    L a b = lexCmp L (viewS a).reverse (viewS b).reverse := by
  have ua := (ha.ord a .refl).1
  have ub := (hb.ord b .refl).1
  have va := (ha.ord a .refl).2.1
  have vb := (hb.ord b .refl).2.1
  by_cases sa : ∃ l, a = sum l
  · obtain ⟨l, rfl⟩ := sa
    have gl : ∀ x ∈ l, Good x := fun x hx => ha.op (by simpa [operands] using hx)
    have wl := ha.wide l (.inl .refl)
    by_cases sb : ∃ m, b = sum m
    · obtain ⟨m, rfl⟩ := sb
      have gm : ∀ x ∈ m, Good x := fun x hx => hb.op (by simpa [operands] using hx)
      rw [L_eq]
      simp only [permStep, permSame, viewS]
      exact permLists_L gl gm
    · have e : viewS b = [b] := by cases b <;> simp_all [viewS]
      rw [e, List.reverse_singleton, viewS, ← (permLast_L gl hb wl).2, L_eq]
      cases b <;> simp_all [permStep, permSame, permDiff, big]
  · have e1 : viewS a = [a] := by cases a <;> simp_all [viewS]
    by_cases sb : ∃ m, b = sum m
    · obtain ⟨m, rfl⟩ := sb
      have gm : ∀ x ∈ m, Good x := fun x hx => hb.op (by simpa [operands] using hx)
      have wm := hb.wide m (.inl .refl)
      rw [e1, List.reverse_singleton, viewS, ← (permLast_L gm ha wm).1, L_eq]
      cases a <;> simp_all [permStep, permSame, permDiff, big]
    · have e : viewS b = [b] := by cases b <;> simp_all [viewS]
      rw [e, e1, List.reverse_singleton, List.reverse_singleton, lex_single]

/-- Seen as a power: base and exponent. -/
def viewB : Expr D → Expr D
  | pow b _ => b
  | e => e

/-- Seen as a power: base and exponent. -/
def viewE : Expr D → Expr D
  | pow _ e => e
  | _ => one

theorem good_one : Good (one : Expr D) := by
  have h : ∀ x, Occurs x (one : Expr D) → x = one := by
    intro x hx
    rcases occurs_iff.1 hx with rfl | ⟨o, ho, _⟩
    · rfl
    · simp [one, operands] at ho
  have e1 : (one : Expr D) = num (.rat 1) := by simp [one]
  refine ⟨fun x hx => ?_, fun x hx => ?_, fun l hl => ?_, fun b hb => ?_⟩
  · rw [h x hx, e1]; simp
  · rw [h x hx, e1]; simp
  · rcases hl with hl | hl <;> have := h _ hl <;> rw [e1] at this <;> simp at this
  · have := h _ hb; rw [e1] at this; simp at this

theorem viewB_good {a : Expr D} (ha : Good a) : Good (viewB a) := by
  cases a with
  | pow b e => exact ha.op (by simp [operands, viewB, viewE])
  | _ => exact ha

theorem viewE_good {a : Expr D} (ha : Good a) : Good (viewE a) := by
  cases a with
  | pow b e => exact ha.op (by simp [operands, viewB, viewE])
  | _ => exact good_one

theorem L_viewB {a b : Expr D} (ha : Good a) (hb : Good b) (ba : big a = true) (bb : big b = true)
    (pa : ∀ l, a ≠ prod l) (pb : ∀ l, b ≠ prod l) :
    (viewB a = viewB b → L a b = L (viewE a) (viewE b)) ∧ (viewB a ≠ viewB b → L a b = L (viewB a) (viewB b)) := by
  have ua := (ha.ord a .refl).1
  have ub := (hb.ord b .refl).1
  have va := (ha.ord a .refl).2.1
  have vb := (hb.ord b .refl).2.1
  have gB := viewB_good ha
  have gB' := viewB_good hb
  have gE := viewE_good ha
  have gE' := viewE_good hb
  by_cases qa : ∃ x y, a = pow x y
  · obtain ⟨x, y, rfl⟩ := qa
    by_cases qb : ∃ z w, b = pow z w
    · obtain ⟨z, w, rfl⟩ := qb
      rw [L_eq]
      simp only [permStep, permSame, viewB, viewE]
      simp only [viewB] at gB gB'
      constructor
      · rintro rfl; rw [(gB.eq_iff gB).2 rfl]; simp [L]
      · intro e; rw [gB'.isEqual_false gB (Ne.symm e)]; simp [L]
    · have e1 : viewB b = b := by cases b <;> simp_all [viewB]
      have e2 : viewE b = one := by cases b <;> simp_all [viewE]
      rw [e1, e2]
      rw [e1] at gB'
      have key : L (pow x y) b = !(if !isEqual x b then doPermute x b else doPermute y one) := by
        rw [L_eq]
        cases b <;> simp_all [permStep, permSame, permDiff, big]
      rw [key]
      simp only [viewB, viewE] at gB gE ⊢
      constructor
      · rintro rfl
        rw [(gB.eq_iff gB).2 rfl]
        simp only [Bool.not_true, Bool.false_eq_true, if_false]
        rcases gE.tri good_one with ⟨h1, h2, h3⟩ | ⟨h1, h2⟩
        · subst h1; exact absurd .refl (ha.nf x)
        · rw [h2]; rfl
      · intro e
        rw [gB.isEqual_false gB' e]
        rcases gB.tri gB' with ⟨h1, _⟩ | ⟨h1, h2⟩
        · exact absurd h1 e
        · rw [h2]; rfl
  · have e1 : viewB a = a := by cases a <;> simp_all [viewB]
    have e2 : viewE a = one := by cases a <;> simp_all [viewE]
    rw [e1, e2]
    rw [e1] at gB
    by_cases qb : ∃ z w, b = pow z w
    · obtain ⟨z, w, rfl⟩ := qb
      have key : L a (pow z w) = (if !isEqual z a then doPermute z a else doPermute w one) := by
        rw [L_eq]
        cases a <;> simp_all [permStep, permSame, permDiff, big]
      rw [key]
      simp only [viewB, viewE] at gB' gE' ⊢
      constructor
      · rintro rfl
        rw [(gB.eq_iff gB).2 rfl]
        rfl
      · intro e
        rw [gB'.isEqual_false gB (Ne.symm e)]
        rfl
    · have e3 : viewB b = b := by cases b <;> simp_all [viewB]
      have e4 : viewE b = one := by cases b <;> simp_all [viewE]
      rw [e3, e4]
      refine ⟨?_, fun _ => rfl⟩
      rintro rfl
      rw [ha.irrefl, good_one.irrefl]

/-- Names and arguments of symbols and functions. -/
theorem L_small {a b : Expr D} (ha : Good a) (hb : Good b) (ba : big a = true) (bb : big b = true)
    (pa : ∀ l, a ≠ prod l) (pb : ∀ l, b ≠ prod l) (qa : ∀ x y, a ≠ pow x y) (qb : ∀ x y, b ≠ pow x y)
    (sa : ∀ l, a ≠ sum l) (sb : ∀ l, b ≠ sum l) :
    ((∃ s, a = sym s) ∨ ∃ k x, a = fn k x) ∧ ((∃ s, b = sym s) ∨ ∃ k x, b = fn k x) := by
  have ua := (ha.ord a .refl).1
  have ub := (hb.ord b .refl).1
  have va := (ha.ord a .refl).2.1
  have vb := (hb.ord b .refl).2.1
  constructor
  · cases a <;> simp_all [big]
  · cases b <;> simp_all [big]

/-- The order of symbols and functions with different names. -/
theorem L_names {a b : Expr D} (ha : (∃ s, a = sym s) ∨ ∃ k x, a = fn k x) (hb : (∃ s, b = sym s) ∨ ∃ k x, b = fn k x)
    (h : name a ≠ name b) : L a b = Name.lt (name a) (name b) := by
  rw [L_eq]
  have key : ∀ {x y : Name}, x ≠ y → (!Name.lt x y) = Name.lt y x := by
    intro x y hne
    cases h1 : Name.lt x y with
    | true => rw [Name.lt_asymm h1]; rfl
    | false =>
      cases h2 : Name.lt y x with
      | true => rfl
      | false => exact absurd (Name.lt_total h1 h2) hne
  rcases ha with ⟨s, rfl⟩ | ⟨k, x, rfl⟩ <;> rcases hb with ⟨t, rfl⟩ | ⟨k', x', rfl⟩
  · simp only [name] at h ⊢
    simp only [permStep, permSame, permSym]
    rw [if_neg (fun x => h x.1.symm)]
  · simp only [name] at h ⊢
    have h' : (fn k' x' : Expr D).name ≠ s.id.name := Ne.symm h
    simp only [permStep, permSame, permDiff]
    rw [if_neg h']
  · simp only [name] at h ⊢
    have h' : (fn k x : Expr D).name ≠ t.id.name := h
    simp only [permStep, permSame, permDiff]
    rw [if_neg h']
    exact key (Ne.symm h)
  · simp only [name] at h ⊢
    simp only [permStep, permSame]
    rw [if_pos (fun x => h x.symm)]

theorem tr_small {a b c : Expr D} (ha : (∃ s, a = sym s) ∨ ∃ k x, a = fn k x) (hb : (∃ s, b = sym s) ∨ ∃ k x, b = fn k x)
    (hc : (∃ s, c = sym s) ∨ ∃ k x, c = fn k x)
    (ih : ∀ k x k' y k'' z, a = fn k x → b = fn k' y → c = fn k'' z → Tr x y z) : Tr a b c := by
  intro h1 h2
  by_cases e1 : name a = name b
  · by_cases e2 : name b = name c
    · rcases ha with ⟨s, rfl⟩ | ⟨k, x, rfl⟩ <;> rcases hb with ⟨t, rfl⟩ | ⟨k', x', rfl⟩ <;> rcases hc with ⟨u, rfl⟩ | ⟨k'', x'', rfl⟩
      · exact symLt_trans (s := s) (t := t) (u := u) (by simpa [L_eq, permStep, permSame, symLt] using h1) (by simpa [L_eq, permStep, permSame, symLt] using h2) ▸ (by simp [L_eq, permStep, permSame, symLt])
      all_goals simp only [name] at e1 e2
      all_goals try (simp [L_eq, permStep, permSame, permDiff, e1, e2, name] at h1 h2; done)
      all_goals try (simp [L_eq, permStep, permSame, permDiff, e1, e2, name]; done)
      have key : ∀ (k k' : Fn) (x x' : Expr D), k.name = k'.name → L (fn k x) (fn k' x') = L x x' := by
        intro k k' x x' e
        rw [L_eq (fn k x)]
        simp only [permStep, permSame]
        rw [if_neg (fun h => h e.symm)]
        rfl
      rw [key _ _ _ _ e1] at h1
      rw [key _ _ _ _ e2] at h2
      rw [key _ _ _ _ (e1.trans e2)]
      exact ih _ _ _ _ _ _ rfl rfl rfl h1 h2
    · rw [L_names hb hc e2] at h2
      rw [L_names ha hc (e1 ▸ e2), e1, h2]
  · rw [L_names ha hb e1] at h1
    by_cases e2 : name b = name c
    · rw [L_names ha hc (e2 ▸ e1), ← e2, h1]
    · rw [L_names hb hc e2] at h2
      have h3 := Name.lt_trans h1 h2
      have e3 : name a ≠ name c := by
        intro e; rw [e, Name.lt_irrefl] at h3; cases h3
      rw [L_names ha hc e3, h3]

theorem size_viewP {a : Expr D} {x : Expr D} (h : x ∈ viewP a) : size x ≤ size a ∧ ((∃ l, a = prod l) → size x < size a) := by
  cases a with
  | prod l => have := size_mem (l := l) h; simp only [size]; omega
  | _ => simp only [viewP, List.mem_singleton] at h; subst h; simp

theorem size_viewS {a : Expr D} {x : Expr D} (h : x ∈ viewS a) : size x ≤ size a ∧ ((∃ l, a = sum l) → size x < size a) := by
  cases a with
  | sum l => have := size_mem (l := l) h; simp only [size]; omega
  | _ => simp only [viewS, List.mem_singleton] at h; subst h; simp

theorem viewP_good {a x : Expr D} (ha : Good a) (h : x ∈ viewP a) : Good x := by
  cases a with
  | prod l => exact ha.op h
  | _ => simp only [viewP, List.mem_singleton] at h; subst h; exact ha

theorem viewS_good {a x : Expr D} (ha : Good a) (h : x ∈ viewS a) : Good x := by
  cases a with
  | sum l => exact ha.op h
  | _ => simp only [viewS, List.mem_singleton] at h; subst h; exact ha

theorem size_viewB (a : Expr D) : size (viewB a) ≤ size a ∧ ((∃ x y, a = pow x y) → size (viewB a) < size a) := by
  cases a with
  | pow x y => simp only [viewB, size]; omega
  | _ => simp [viewB]

theorem size_viewE (a : Expr D) : size (viewE a) ≤ size a ∧ ((∃ x y, a = pow x y) → size (viewE a) < size a) := by
  have := size_pos a
  cases a with
  | pow x y => simp only [viewE, size]; omega
  | _ => simp only [viewE, one, size] at this ⊢; simp; try omega

theorem tr_num {a b c : Expr D} (ha : Good a) (hb : Good b) (hc : Good c) (h : big a = false ∨ big b = false ∨ big c = false) : Tr a b c := by
  have ua := (ha.ord a .refl).1
  have ub := (hb.ord b .refl).1
  have uc := (hc.ord c .refl).1
  intro h1 h2
  rw [L_eq] at h1 h2 ⊢
  rcases h with h | h | h
  · cases a <;> simp [big] at h
    · cases b <;> cases c <;> simp_all [permStep, permSame, permDiff, Number.lt_iff]
      exact lt_trans h1 h2
    · cases b <;> cases c <;> simp_all [permStep, permSame, permDiff]
      exact Name.lt_trans h1 h2
  · cases b <;> simp [big] at h
    · cases a <;> cases c <;> simp_all [permStep, permSame, permDiff, Number.lt_iff]
      exact lt_trans h1 h2
    · cases a <;> cases c <;> simp_all [permStep, permSame, permDiff]
      exact Name.lt_trans h1 h2
  · cases c <;> simp [big] at h
    · cases b <;> cases a <;> simp_all [permStep, permSame, permDiff, Number.lt_iff]
      exact lt_trans h1 h2
    · cases b <;> cases a <;> simp_all [permStep, permSame, permDiff]
      exact Name.lt_trans h1 h2

theorem trans_aux (n : ℕ) : ∀ a b c : Expr D, size a + size b + size c ≤ n → Good a → Good b → Good c → Tr a b c := by
  induction n with
  | zero => intro a b c h; have := size_pos a; omega
  | succ n ih =>
    intro a b c hn ha hb hc
    by_cases hbig : big a = false ∨ big b = false ∨ big c = false
    · exact tr_num ha hb hc hbig
    simp only [not_or, Bool.not_eq_false] at hbig
    obtain ⟨ba, bb, bc⟩ := hbig
    by_cases hp : (∃ l, a = prod l) ∨ (∃ l, b = prod l) ∨ ∃ l, c = prod l
    · intro h1 h2
      rw [L_viewP ha hb ba bb] at h1
      rw [L_viewP hb hc bb bc] at h2
      rw [L_viewP ha hc ba bc]
      refine lex_trans (fun x hx => viewP_good ha (List.mem_reverse.1 hx)) (fun x hx => viewP_good hb (List.mem_reverse.1 hx))
        (fun x hx => viewP_good hc (List.mem_reverse.1 hx)) (fun x hx y hy z hz => ?_) h1 h2
      rw [List.mem_reverse] at hx hy hz
      refine ih x y z ?_ (viewP_good ha hx) (viewP_good hb hy) (viewP_good hc hz)
      have s1 := size_viewP hx
      have s2 := size_viewP hy
      have s3 := size_viewP hz
      rcases hp with hp | hp | hp
      · have := s1.2 hp; omega
      · have := s2.2 hp; omega
      · have := s3.2 hp; omega
    simp only [not_or, not_exists] at hp
    obtain ⟨pa, pb, pc⟩ := hp
    by_cases hq : (∃ x y, a = pow x y) ∨ (∃ x y, b = pow x y) ∨ ∃ x y, c = pow x y
    · have k1 := L_viewB ha hb ba bb pa pb
      have k2 := L_viewB hb hc bb bc pb pc
      have k3 := L_viewB ha hc ba bc pa pc
      have gA := viewB_good ha
      have gB := viewB_good hb
      have gC := viewB_good hc
      have tB : Tr (viewB a) (viewB b) (viewB c) := by
        refine ih _ _ _ ?_ gA gB gC
        have s1 := size_viewB a
        have s2 := size_viewB b
        have s3 := size_viewB c
        rcases hq with hq | hq | hq
        · have := s1.2 hq; omega
        · have := s2.2 hq; omega
        · have := s3.2 hq; omega
      have tE : Tr (viewE a) (viewE b) (viewE c) := by
        refine ih _ _ _ ?_ (viewE_good ha) (viewE_good hb) (viewE_good hc)
        have s1 := size_viewE a
        have s2 := size_viewE b
        have s3 := size_viewE c
        rcases hq with hq | hq | hq
        · have := s1.2 hq; omega
        · have := s2.2 hq; omega
        · have := s3.2 hq; omega
      intro h1 h2
      by_cases e1 : viewB a = viewB b
      · by_cases e2 : viewB b = viewB c
        · rw [k3.1 (e1.trans e2)]
          exact tE (k1.1 e1 ▸ h1) (k2.1 e2 ▸ h2)
        · rw [k3.2 (e1 ▸ e2), e1]
          exact k2.2 e2 ▸ h2
      · by_cases e2 : viewB b = viewB c
        · rw [k3.2 (e2 ▸ e1), ← e2]
          exact k1.2 e1 ▸ h1
        · rw [k1.2 e1] at h1
          rw [k2.2 e2] at h2
          have h3 := tB h1 h2
          have e3 : viewB a ≠ viewB c := by
            intro e; rw [e, gC.irrefl] at h3; cases h3
          rw [k3.2 e3, h3]
    simp only [not_or, not_exists] at hq
    obtain ⟨qa, qb, qc⟩ := hq
    by_cases hs : (∃ l, a = sum l) ∨ (∃ l, b = sum l) ∨ ∃ l, c = sum l
    · intro h1 h2
      rw [L_viewS ha hb ba bb pa pb qa qb] at h1
      rw [L_viewS hb hc bb bc pb pc qb qc] at h2
      rw [L_viewS ha hc ba bc pa pc qa qc]
      refine lex_trans (fun x hx => viewS_good ha (List.mem_reverse.1 hx)) (fun x hx => viewS_good hb (List.mem_reverse.1 hx))
        (fun x hx => viewS_good hc (List.mem_reverse.1 hx)) (fun x hx y hy z hz => ?_) h1 h2
      rw [List.mem_reverse] at hx hy hz
      refine ih x y z ?_ (viewS_good ha hx) (viewS_good hb hy) (viewS_good hc hz)
      have s1 := size_viewS hx
      have s2 := size_viewS hy
      have s3 := size_viewS hz
      rcases hs with hp | hp | hp
      · have := s1.2 hp; omega
      · have := s2.2 hp; omega
      · have := s3.2 hp; omega
    simp only [not_or, not_exists] at hs
    obtain ⟨sa, sb, sc⟩ := hs
    obtain ⟨wa, wb⟩ := L_small ha hb ba bb pa pb qa qb sa sb
    obtain ⟨_, wc⟩ := L_small ha hc ba bc pa pc qa qc sa sc
    refine tr_small wa wb wc fun k x k' y k'' z e1 e2 e3 => ?_
    subst e1 e2 e3
    refine ih x y z ?_ (ha.op (by simp [operands])) (hb.op (by simp [operands])) (hc.op (by simp [operands]))
    simp only [size] at hn
    omega

theorem Good.trans {a b c : Expr D} (ha : Good a) (hb : Good b) (hc : Good c) (h1 : L a b = true) (h2 : L b c = true) : L a c = true :=
  trans_aux _ a b c le_rfl ha hb hc h1 h2

end Expr

end Tsym
