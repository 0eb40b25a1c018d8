import Verif.Props.Parser

set_option autoImplicit false

/-!
# C81: the texts of names in Unicode and in TeX
-/

namespace Tsym

/-! ## Specification -/

namespace GreekSpec

/-- A name, its letter, and its text in TeX. -/
structure Row where
  name : String
  letter : Char
  tex : String
  deriving DecidableEq

/-- The Greek letters. -/
def table : List Row := [
  ⟨"Alpha", 'Α', "\\Alpha"⟩, ⟨"Beta", 'Β', "\\Beta"⟩, ⟨"Gamma", 'Γ', "\\Gamma"⟩, ⟨"Delta", 'Δ', "\\Delta"⟩,
  ⟨"Epsilon", 'Ε', "\\Epsilon"⟩, ⟨"Zeta", 'Ζ', "\\Zeta"⟩, ⟨"Eta", 'Η', "\\Eta"⟩, ⟨"Theta", 'Θ', "\\Theta"⟩,
  ⟨"Iota", 'Ι', "\\Iota"⟩, ⟨"Kappa", 'Κ', "\\Kappa"⟩, ⟨"Lambda", 'Λ', "\\Lambda"⟩, ⟨"My", 'Μ', "\\My"⟩,
  ⟨"Ny", 'Ν', "\\Ny"⟩, ⟨"Xi", 'Ξ', "\\Xi"⟩, ⟨"Omikron", 'Ο', "\\Omikron"⟩, ⟨"Pi", 'Π', "\\Pi"⟩,
  ⟨"Rho", 'Ρ', "\\Rho"⟩, ⟨"Sigma", 'Σ', "\\Sigma"⟩, ⟨"Tau", 'Τ', "\\Tau"⟩, ⟨"Ypsilon", 'Υ', "\\Ypsilon"⟩,
  ⟨"Phi", 'Φ', "\\varPhi"⟩, ⟨"Chi", 'Χ', "\\Chi"⟩, ⟨"Psi", 'Ψ', "\\Psi"⟩, ⟨"Omega", 'Ω', "\\Omega"⟩,
  ⟨"alpha", 'α', "\\alpha"⟩, ⟨"beta", 'β', "\\beta"⟩, ⟨"gamma", 'γ', "\\gamma"⟩, ⟨"delta", 'δ', "\\delta"⟩,
  ⟨"epsilon", 'ε', "\\epsilon"⟩, ⟨"zeta", 'ζ', "\\zeta"⟩, ⟨"eta", 'η', "\\eta"⟩, ⟨"theta", 'θ', "\\theta"⟩,
  ⟨"iota", 'ι', "\\iota"⟩, ⟨"kappa", 'κ', "\\kappa"⟩, ⟨"lambda", 'λ', "\\lambda"⟩, ⟨"my", 'μ', "\\my"⟩,
  ⟨"ny", 'ν', "\\ny"⟩, ⟨"xi", 'ξ', "\\xi"⟩, ⟨"omikron", 'ο', "\\omikron"⟩, ⟨"pi", 'π', "\\pi"⟩,
  ⟨"rho", 'ρ', "\\rho"⟩, ⟨"sigma", 'σ', "\\sigma"⟩, ⟨"tau", 'τ', "\\tau"⟩, ⟨"ypsilon", 'υ', "\\ypsilon"⟩,
  ⟨"phi", 'φ', "\\varphi"⟩, ⟨"chi", 'χ', "\\chi"⟩, ⟨"psi", 'ψ', "\\psi"⟩, ⟨"omega", 'ω', "\\omega"⟩]

/-- The commands for Greek letters that LaTeX has (with amsmath for the slanted capital letters). -/
def latex : List String := [
  "\\alpha", "\\beta", "\\gamma", "\\delta", "\\epsilon", "\\varepsilon", "\\zeta", "\\eta", "\\theta", "\\vartheta", "\\iota",
  "\\kappa", "\\lambda", "\\mu", "\\nu", "\\xi", "\\pi", "\\varpi", "\\rho", "\\varrho", "\\sigma", "\\varsigma", "\\tau",
  "\\upsilon", "\\phi", "\\varphi", "\\chi", "\\psi", "\\omega", "\\Gamma", "\\Delta", "\\Theta", "\\Lambda", "\\Xi", "\\Pi",
  "\\Sigma", "\\Upsilon", "\\Phi", "\\Psi", "\\Omega", "\\varGamma", "\\varDelta", "\\varTheta", "\\varLambda", "\\varXi",
  "\\varPi", "\\varSigma", "\\varUpsilon", "\\varPhi", "\\varPsi", "\\varOmega"]

/-- A subscript or superscript: one character as it is, more of them with braces. -/
def script (mark : Char) : Str → Str
  | [] => []
  | [c] => [mark, c]
  | l => [mark, '{'] ++ l ++ ['}']

end GreekSpec

/-! ## Proofs -/

theorem braces_script (t : Str) (c : Char) : Name.braces t c = GreekSpec.script c t := by
  match t with
  | [] => rfl
  | [_] => rfl
  | _ :: _ :: _ => simp [Name.braces, GreekSpec.script]

theorem lowerC_eq {c d : Char} (h : d = lowerC c) : d = c ∨ (65 ≤ c.toNat ∧ c.toNat ≤ 90 ∧ d = Char.ofNat (c.toNat + 32)) := by
  unfold lowerC at h
  split at h
  · rename_i h1
    simp only [Bool.and_eq_true, decide_eq_true_eq] at h1
    exact .inr ⟨h1.1, h1.2, h⟩
  · exact .inl h

/-- The words of the table. -/
def greekWords : List Str := GreekSpec.table.map fun r => r.name.toList

theorem mem_greekWords (s : Str) : s ∈ greekWords ↔ ∃ r ∈ GreekSpec.table, r.name.toList = s := by
  simp [greekWords]

/-- The character with a given lower case. -/
theorem upper_of {c d : Char} (h : d = lowerC c) : c = d ∨ c = Char.ofNat (d.toNat - 32) := by
  rcases lowerC_eq h with h | ⟨h1, h2, h⟩
  · exact .inl h.symm
  · right
    have h3 : (Char.ofNat (c.toNat + 32)).toNat = c.toNat + 32 := by
      have : ∀ k < 91, 65 ≤ k → (Char.ofNat (k + 32)).toNat = k + 32 := by decide
      exact this _ (by omega) h1
    rw [h, h3]
    simp

theorem greek_words (s : Str) : Name.isGreek s = true ↔ s ∈ greekWords := by
  constructor
  · intro h
    simp only [Name.isGreek, Bool.and_eq_true, decide_eq_true_eq] at h
    obtain ⟨h1, h2⟩ := h
    unfold Name.greekIndex at h2
    rw [List.findIdx?_isSome, List.any_eq_true] at h2
    obtain ⟨l, hl, h2⟩ := h2
    cases s with
    | nil => simp at h1
    | cons c t =>
      simp only [List.head?_cons, Option.map_some, List.drop_succ_cons, List.drop_zero, Bool.and_eq_true, Bool.or_eq_true, beq_iff_eq] at h2
      obtain ⟨h2, h3⟩ := h2
      have key : ∀ l ∈ Name.alphabet, ∀ d, l.head? = some d → d :: l.drop 1 ∈ greekWords ∧ Char.ofNat (d.toNat - 32) :: l.drop 1 ∈ greekWords := by
        intro l hl d hd
        have : ∀ l ∈ Name.alphabet, (l.headD 'x') :: l.drop 1 ∈ greekWords ∧ Char.ofNat ((l.headD 'x').toNat - 32) :: l.drop 1 ∈ greekWords := by decide +kernel
        have := this l hl
        cases l with
        | nil => simp at hd
        | cons x l => simp only [List.head?_cons, Option.some.injEq] at hd; subst hd; exact this
      rw [h3]
      rcases h2 with h2 | h2
      · exact (key l hl c h2).1
      · have k := key l hl (lowerC c) h2
        rcases upper_of (c := c) (d := lowerC c) rfl with e | e
        · rw [e]; exact k.1
        · rw [e]; exact k.2
  · have : ∀ s ∈ greekWords, Name.isGreek s = true := by decide +kernel
    exact this s

/-! ## C81 -/

/-- C81. The Greek letters are the 48 words of the table, and no other string is one. -/
theorem C81_greek (s : Str) : Name.isGreek s = true ↔ ∃ r ∈ GreekSpec.table, r.name.toList = s := by
  rw [greek_words, mem_greekWords]

/-- C81. The text of a Greek letter in Unicode is the letter alone, subscript and superscript are not shown; in TeX it is the
entry of the table with subscript and superscript. -/
theorem C81_letter (n : Name) (r : GreekSpec.Row) (hr : r ∈ GreekSpec.table) (hn : n.value = r.name.toList) :
    n.unicode = [r.letter] ∧ n.tex = r.tex.toList ++ GreekSpec.script '_' n.sub ++ GreekSpec.script '^' n.sup := by
  have h1 : ∀ r ∈ GreekSpec.table, Name.isGreek r.name.toList = true ∧ Name.greekLetter r.name.toList = [r.letter] ∧ Name.greekTex r.name.toList = r.tex.toList := by
    decide +kernel
  obtain ⟨h1, h2, h3⟩ := h1 r hr
  simp only [Name.unicode, Name.tex, hn, h1, if_true, h2, h3, braces_script, and_self]

/-- C81. For all other names, the texts are the value with subscript and superscript. -/
theorem C81_other (n : Name) (h : ∀ r ∈ GreekSpec.table, n.value ≠ r.name.toList) :
    n.unicode = n.value ++ GreekSpec.script '_' n.sub ++ GreekSpec.script '^' n.sup ∧
    n.tex = n.value ++ GreekSpec.script '_' n.sub ++ GreekSpec.script '^' n.sup := by
  have : Name.isGreek n.value = false := by
    rw [Bool.eq_false_iff, Ne, C81_greek]
    rintro ⟨r, hr, e⟩
    exact h r hr e.symm
  simp only [Name.unicode, Name.tex, this, Bool.false_eq_true, if_false, Name.concat, braces_script, and_self]

theorem greekTex_alnum {s : Str} (h : Name.isGreek s = true) : ∃ w, Name.greekTex s = '\\' :: w ∧ ∀ c ∈ w, isAlnumC c = true := by
  have : ∀ s ∈ greekWords, ((Name.greekTex s).drop 1).all isAlnumC = true := by decide +kernel
  refine ⟨(Name.greekTex s).drop 1, rfl, ?_⟩
  simpa [List.all_eq_true] using this s ((greek_words s).1 h)

/-- C81. Different legal names have different texts in TeX. -/
theorem C81_tex_injective {n m : Name} (hn : n.Legal) (hm : m.Legal) (h : n.tex = m.tex) : n = m := by
  obtain ⟨v, t, u⟩ := n
  obtain ⟨v', t', u'⟩ := m
  obtain ⟨h1, h2, rfl⟩ := hn
  obtain ⟨h1', h2', rfl⟩ := hm
  simp only [Name.tex] at h
  have e : Name.braces [] '^' = [] := by simp [Name.braces]
  rw [e, List.append_nil, List.append_nil] at h
  have hb : isAlnumC '\\' = false := by decide
  have first : ∀ {v t w : Str}, IsName v → v ++ Name.braces t '_' = '\\' :: w → False := by
    intro v t w hv hh
    obtain ⟨c, l, rfl, hc, -⟩ := hv.shape
    simp only [List.cons_append, List.cons.injEq] at hh
    rw [hh.1] at hc
    exact absurd hc (by decide)
  cases g : Name.isGreek v <;> cases g' : Name.isGreek v' <;> simp only [g, g', Bool.false_eq_true, if_false, if_true] at h
  · obtain ⟨rfl, h3⟩ := split_underscore h1.alnum h1'.alnum (braces_head _) (braces_head _) h
    cases braces_inj h2 h2' h3
    rfl
  · exact (first h1 h).elim
  · exact (first h1' h.symm).elim
  · obtain ⟨w, e1, a1⟩ := greekTex_alnum g
    obtain ⟨w', e2, a2⟩ := greekTex_alnum g'
    rw [e1, e2] at h
    simp only [List.cons_append, List.cons.injEq, true_and] at h
    obtain ⟨e3, h3⟩ := split_underscore a1 a2 (braces_head _) (braces_head _) h
    have inj : ∀ s ∈ greekWords, ∀ s' ∈ greekWords, Name.greekTex s = Name.greekTex s' → s = s' := by decide +kernel
    have := inj v ((greek_words v).1 g) v' ((greek_words v').1 g') (by rw [e1, e2, e3])
    subst this
    cases braces_inj h2 h2' h3
    rfl

/-- C81. Different legal names have different texts in Unicode, if Greek letters have no subscript. Greek letters with different
subscripts have the same text (C35). -/
theorem C81_unicode_injective {n m : Name} (hn : n.Legal) (hm : m.Legal) (gn : Name.isGreek n.value = true → n.sub = [])
    (gm : Name.isGreek m.value = true → m.sub = []) (h : n.unicode = m.unicode) : n = m := by
  have outside : ∀ {n m : Name}, n.Legal → Name.isGreek n.value = false → Name.isGreek m.value = true → n.unicode = m.unicode → False := by
    intro n m hn g g' h
    simp only [Name.unicode, g, g', Bool.false_eq_true, if_false, if_true] at h
    have : ∀ s ∈ greekWords, ((Name.greekLetter s).all fun c => decide (128 ≤ c.toNat)) = true ∧ Name.greekLetter s ≠ [] := by decide +kernel
    obtain ⟨k1, k2⟩ := this _ ((greek_words _).1 g')
    rw [← h] at k1 k2
    obtain ⟨c, l, hv, hc, -⟩ := hn.1.shape
    simp only [Name.concat, hv, List.cons_append, List.all_cons, Bool.and_eq_true, decide_eq_true_eq] at k1
    have : c.toNat < 128 := by
      simp only [isAlphaC] at hc
      revert hc; simp; omega
    omega
  cases g : Name.isGreek n.value <;> cases g' : Name.isGreek m.value
  · exact C35_unicode_partial hn hm g g' h
  · exact (outside hn g g' h).elim
  · exact (outside hm g' g h.symm).elim
  · simp only [Name.unicode, g, g', if_true] at h
    have inj : ∀ s ∈ greekWords, ∀ s' ∈ greekWords, Name.greekLetter s = Name.greekLetter s' → s = s' := by decide +kernel
    have := inj _ ((greek_words _).1 g) _ ((greek_words _).1 g') h
    have e1 := gn g
    have e2 := gm g'
    have e3 := hn.3
    have e4 := hm.3
    cases n; cases m
    simp_all

/-- C81. Of the 48 texts in TeX, 18 are not commands of LaTeX, e.g. \my and \ypsilon. -/
theorem C81_false_tex : (GreekSpec.table.filter fun r => !GreekSpec.latex.contains r.tex).length = 18 ∧
    ∀ n : Name, n.value = "my".toList → n.sub = [] → n.sup = [] → n.tex = "\\my".toList ∧ "\\my" ∉ GreekSpec.latex := by
  refine ⟨by decide +kernel, fun n h1 h2 h3 => ?_⟩
  have := (C81_letter n ⟨"my", 'μ', "\\my"⟩ (by decide +kernel) h1).2
  rw [h2, h3] at this
  exact ⟨by rw [this]; decide +kernel, by decide +kernel⟩

namespace NameTexEx

/-- A Greek letter with a subscript. -/
def phi : Name := ⟨"phi".toList, "12".toList, []⟩

theorem phi_legal : phi.Legal :=
  ⟨⟨⟨'p', "hi".toList, rfl, by decide, by decide⟩, by decide, by decide⟩, by decide, rfl⟩

/-- A name that is not a Greek letter. -/
def varphi : Name := ⟨"varphi".toList, "12".toList, []⟩

theorem varphi_legal : varphi.Legal :=
  ⟨⟨⟨'v', "arphi".toList, rfl, by decide, by decide⟩, by decide, by decide⟩, by decide, rfl⟩

/-- The hypotheses are met, and the texts. -/
example : phi.unicode = ['φ'] ∧ phi.tex = "\\varphi_{12}".toList ∧ varphi.unicode = "varphi_{12}".toList ∧ varphi.tex = "varphi_{12}".toList := by
  refine ⟨(C81_letter phi ⟨"phi", 'φ', "\\varphi"⟩ (by decide +kernel) rfl).1, (C81_letter phi ⟨"phi", 'φ', "\\varphi"⟩ (by decide +kernel) rfl).2, ?_, ?_⟩
  · exact (C81_other varphi (by decide +kernel)).1
  · exact (C81_other varphi (by decide +kernel)).2

example : phi.tex ≠ varphi.tex ∧ Name.unicode ⟨"phi".toList, [], []⟩ ≠ varphi.unicode :=
  ⟨fun h => absurd (C81_tex_injective phi_legal varphi_legal h) (by decide), fun h => absurd (C81_unicode_injective (n := ⟨"phi".toList, [], []⟩)
    ⟨phi_legal.1, by simp, rfl⟩ varphi_legal (fun _ => rfl) (fun g => absurd g (by decide +kernel)) h) (by decide)⟩

end NameTexEx
end Tsym
