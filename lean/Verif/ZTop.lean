import Verif.ZRat

set_option autoImplicit false
set_option linter.unusedSectionVars false
set_option linter.unusedSimpArgs false
set_option linter.unusedVariables false

/-!
# Sums of fractions
-/

namespace Tsym

namespace Zf

open Expr
open scoped Classical

variable {D : Type} [Flt D] [LawfulFlt D] {cfg : Cfg D} {σ : Asg}

/-- A sum of products: of Laurent polynomials and reciprocals, or of such a sum, powers of symbols and
reciprocals. -/
inductive XT (cfg : Cfg D) : Expr D → Prop
  | sum (L : List (Mo D)) (h : SL cfg L) (h2 : 2 ≤ L.length) (S : Mo D → Expr D)
      (hf : ∀ m ∈ L, (∀ f ∈ m.2, QF cfg f) ∨ ∀ f ∈ m.2, f = (S m, 1) ∨ UF cfg f)
      (hS : ∀ m ∈ L, (∃ f ∈ m.2, ¬ QF cfg f) → XT cfg (S m)) : XT cfg (.sum (L.map em))

/-- A product that may occur in such a sum. -/
def TT (cfg : Cfg D) (P : List (Expr D × ℤ)) : Prop :=
  (∀ f ∈ P, QF cfg f) ∨ ∃ S, XT cfg S ∧ ∀ f ∈ P, f = (S, 1) ∨ UF cfg f

theorem UF.qf {f : Expr D × ℤ} (h : UF cfg f) : QF cfg f := h.1

theorem XT.cases {e : Expr D} (h : XT cfg e) : ∃ L, SL cfg L ∧ 2 ≤ L.length ∧ (∀ m ∈ L, TT cfg m.2) ∧ e = .sum (L.map em) := by
  cases h with
  | sum L h h2 S hf hS =>
    refine ⟨L, h, h2, fun m hm => ?_, rfl⟩
    by_cases hq : ∀ f ∈ m.2, QF cfg f
    · exact .inl hq
    · have h' : ∃ f ∈ m.2, ¬ QF cfg f := by
        simpa only [not_forall, exists_prop] using hq
      rcases hf m hm with h | h
      · exact absurd h hq
      · exact .inr ⟨S m, hS m hm h', h⟩

theorem XT.mk {L : List (Mo D)} (h : SL cfg L) (h2 : 2 ≤ L.length) (hT : ∀ m ∈ L, TT cfg m.2) : XT cfg (.sum (L.map em)) := by
  refine .sum L h h2 (fun m => if h : ∃ S, XT cfg S ∧ ∀ f ∈ m.2, f = (S, 1) ∨ UF cfg f then h.choose else .undef) (fun m hm => ?_) fun m hm hq => ?_
  · rcases hT m hm with h | h
    · exact .inl h
    · right; rw [dif_pos h]; exact h.choose_spec.2
  · have : ∃ S, XT cfg S ∧ ∀ f ∈ m.2, f = (S, 1) ∨ UF cfg f := by
      rcases hT m hm with h | h
      · obtain ⟨f, hf, hn⟩ := hq; exact absurd (h f hf) hn
      · exact h
    rw [dif_pos this]; exact this.choose_spec.1

theorem count_fac {q : ℚ} {P : List (Expr D × ℤ)} (hP : P.Nodup) (l : List (Expr D)) : (rl q P).count (.sum l) ≤ 1 := by
  unfold rl
  rw [List.count_append]
  have h1 : (if q = 1 then [] else [.num (.rat q)] : List (Expr D)).count (.sum l) = 0 := by
    rw [List.count_eq_zero]; split <;> simp
  rw [h1, zero_add]
  clear h1
  induction P with
  | nil => simp
  | cons f P ih =>
    rw [List.map_cons, List.count_cons]
    rw [List.nodup_cons] at hP
    by_cases hf : fac f = .sum l
    · have hfe : ∀ g : Expr D × ℤ, fac g = .sum l → g = (.sum l, 1) := by
        rintro ⟨b, k⟩ hg
        unfold fac at hg
        split at hg
        · rename_i h1; exact Prod.ext hg h1
        · cases hg
      have : (P.map fac).count (.sum l) = 0 := by
        rw [List.count_eq_zero]
        intro hm
        obtain ⟨g, hg, e⟩ := List.mem_map.1 hm
        exact hP.1 (by rw [hfe f hf, ← hfe g e]; exact hg)
      rw [this]; split <;> simp
    · have : (fac f == (.sum l : Expr D)) = false := by simpa using hf
      rw [this]; simpa using ih hP.2

theorem filter_count {R : Expr D → Expr D → Prop} {s : Expr D} (hR : ∀ e r, R e r → r.isSum = true → e = s) {l rs : List (Expr D)}
    (h : List.Forall₂ R l rs) : (rs.filter fun r => r.isSum).length ≤ l.count s := by
  induction h with
  | nil => simp
  | @cons e r l rs h _ ih =>
    rw [List.count_cons, List.filter_cons]
    split
    · rename_i hr
      rw [hR e r h hr]; simp; exact ih
    · omega

/-- Such sums can be expanded where they have a value. -/
theorem XT.expand (hc : cfg.Ok) (hp : cfg.maxPrime < 324) (hσ : σ.Respects) {e : Expr D} (h : XT cfg e) :
    Val σ e → ∃ r, Tot cfg (fun E => Tsym.expand E e) r ∧ EP cfg (Nb cfg) r := by
  induction h with
  | sum L hL h2 S hf hS ih =>
    rintro ⟨v, hv⟩
    rw [den_sum] at hv
    have hx : ∀ m ∈ L, ∃ r, Tot cfg (fun E => Tsym.expand E (em m)) r ∧ EP cfg (Nb cfg) r := by
      intro m hm
      have hmv : Val σ (mexpr m.1 m.2) := denSum_mem hv _ (List.mem_map.2 ⟨m, hm, rfl⟩)
      have hC := (hL.sm m hm).can
      by_cases hq : ∀ f ∈ m.2, QF cfg f
      · exact tot_expand_term hc hp hσ hC.facs hq hmv
      · have hq' : ∃ f ∈ m.2, ¬ QF cfg f := by
          simpa only [not_forall, exists_prop] using hq
        have hf : ∀ f ∈ m.2, f = (S m, 1) ∨ UF cfg f := by
          rcases hf m hm with h | h
          exacts [absurd h hq, h]
        obtain ⟨g, hg, hgn⟩ := hq'
        have hge : g = (S m, 1) := by
          rcases hf g hg with h | h
          exacts [h, absurd h.1 hgn]
        subst hge
        have hsf : fac ((S m : Expr D), (1 : ℤ)) = S m := by simp [fac]
        obtain ⟨rS, hrS, eS⟩ := ih m hm ⟨_, hg, hgn⟩ (by
          have := val_fac_mexpr hmv _ hg
          rwa [hsf] at this)
        obtain ⟨lS, hlS⟩ : ∃ l, S m = .sum l := by
          obtain ⟨L', _, _, _, e⟩ := (hS m hm ⟨_, hg, hgn⟩).cases
          exact ⟨_, e⟩
        have hfx : ∀ f ∈ m.2, ∃ r, Tot cfg (fun E => Tsym.expand E (fac f)) r ∧ EP cfg (Nb cfg) r ∧ (fac f ≠ S m → r.isSum = false) := by
          intro f hf'
          rcases hf f hf' with rfl | h
          · exact ⟨rS, by rw [hsf]; exact hrS, eS, fun h => absurd hsf h⟩
          · obtain ⟨r, h1, h2⟩ := tot_expand_uf hc hp hσ h (hC.facs f hf') (val_fac_mexpr hmv f hf')
            exact ⟨r, h1, h2.1, fun _ => h2.2⟩
        rcases mexpr_cases m.1 m.2 with ⟨_, e⟩ | ⟨f, e1, _, e⟩ | ⟨_, _, e⟩
        · rw [em, e]; exact ⟨_, tot_expand_num _, EP.num kl_nb _⟩
        · rw [em, e]
          obtain ⟨r, h1, h2, _⟩ := hfx f (by rw [e1]; simp)
          exact ⟨r, h1, h2⟩
        · rw [em, e]
          obtain ⟨rs, f2, hT⟩ := tot_defScalarAndSums (cfg := cfg) (l := rl m.1 m.2)
            (Q := fun e r => EP cfg (Nb cfg) r ∧ (e ≠ S m → r.isSum = false)) (by
            intro x hx
            rcases mem_rl hx with rfl | ⟨f, hf', rfl⟩
            · exact ⟨_, tot_expand_num _, EP.num kl_nb _, fun _ => rfl⟩
            · exact hfx f hf')
          obtain ⟨r, h1, h2⟩ := tot_eap hc hp hσ hT (fun r hr => by
            obtain ⟨x, hx, h1, h2, _⟩ := forall2_mem f2 r hr
            obtain ⟨w, hw⟩ := val_mexpr hmv x hx
            exact ⟨h2, w, tv_expand hc hσ h1 hw⟩) (.inr (by
            refine le_trans (filter_count (s := S m) ?_ f2) ?_
            · intro e r h hr
              by_contra hn
              rw [h.2.2 hn] at hr; cases hr
            · rw [hlS]; exact count_fac hC.nodup lS))
          refine ⟨r, ?_, h2⟩
          simp only [Tsym.expand]; exact tot_expandAsProduct h1
    obtain ⟨bs, hbs, f2⟩ := tot_mapL_ex (cfg := cfg) (f := fun E e => E.expand e) (l := L.map em)
      (Q := fun _ b => EP cfg (Nb cfg) b) (by
      intro a ha
      obtain ⟨m, hm, rfl⟩ := List.mem_map.1 ha
      obtain ⟨r, hr, h⟩ := hx m hm
      exact ⟨r, tot_expand hr, h⟩)
    have hl : bs.length = (L.map (em : Mo D → Expr D)).length := f2.length_eq.symm
    obtain ⟨r, hr, er, pr⟩ := tot_sum_ep hc (es := bs) (K := Nb cfg) (by
      intro e; rw [e] at hl; simp at hl; rw [← hl] at h2; simp at h2) (fun e he => by
      obtain ⟨a, _, h⟩ := forall2_mem f2 e he; exact h)
    refine ⟨r, ?_, er⟩
    simp only [Tsym.expand]; exact tot_bind hbs (tot_sum hr)

/-! ## Sums of fractions -/

/-- A sum of fractions. -/
def TE (cfg : Cfg D) (e : Expr D) : Prop := ∃ L, SL cfg L ∧ (∀ m ∈ L, TT cfg m.2) ∧ e = sumOf (L.map em)

/-- A sum of fractions as a single product. -/
theorem TE.term {e : Expr D} (h : TE cfg e) : e = zero ∨ ∃ m : Mo D, m.1 ≠ 0 ∧ Can cfg m.2 ∧ ¬ Nx m.1 m.2 ∧ TT cfg m.2 ∧ e = em m := by
  obtain ⟨L, hL, hT, rfl⟩ := h
  match L, hL with
  | [], _ => exact .inl rfl
  | [m], hL => exact .inr ⟨m, hL.cons.1.ne, hL.cons.1.can, hL.cons.1.not_nx _, hT m (by simp), rfl⟩
  | m :: n :: L, hL =>
    refine .inr ⟨(1, [(.sum ((m :: n :: L).map em), 1)]), one_ne_zero, Can.single ⟨zb_sum hL (by simp), one_ne_zero⟩, ?_, ?_, ?_⟩
    · rintro ⟨h, _⟩; exact h rfl
    · exact .inr ⟨_, XT.mk hL (by simp) hT, fun f hf => .inl (List.mem_singleton.1 hf)⟩
    · simp [em, mexpr, rl_one, prodOf, fac, sumOf]

theorem TT.sum_cases {l : List (Expr D)} (h : TT cfg [((.sum l : Expr D), 1)]) :
    ∃ L, SL cfg L ∧ 2 ≤ L.length ∧ (∀ m ∈ L, TT cfg m.2) ∧ (.sum l : Expr D) = .sum (L.map em) := by
  rcases h with h | ⟨S, hS, h⟩
  · rcases (h _ (List.mem_singleton_self _)).cases with ⟨s, hs⟩ | ⟨L, hL, h2, hLf, e⟩
    · cases hs
    · exact ⟨L, hL, h2, fun m hm => .inl fun f hf => (hLf m hm f hf).1, e⟩
  · rcases h _ (List.mem_singleton_self _) with h | h
    · cases h; exact hS.cases
    · rcases h.2 with h | ⟨s, hs⟩
      · simp at h
      · cases hs

theorem TE.of_term {m : Mo D} (h1 : m.1 ≠ 0) (h2 : Can cfg m.2) (h3 : ¬ Nx m.1 m.2) (h4 : TT cfg m.2) : TE cfg (em m) := by
  by_cases hs : ∃ l, m.2 = [(.sum l, 1)]
  · obtain ⟨q, P⟩ := m
    obtain ⟨l, hl⟩ := hs
    simp only at hl h1 h2 h3 h4
    subst hl
    have hq : q = 1 := by by_contra h; exact h3 ⟨h, l, rfl⟩
    subst hq
    have he : (em ((1 : ℚ), [((.sum l : Expr D), (1 : ℤ))]) : Expr D) = .sum l := by simp [em, mexpr, rl_one, prodOf, fac]
    rw [he]
    obtain ⟨L, hL, hL2, hLf, hl⟩ := h4.sum_cases
    refine ⟨L, hL, hLf, ?_⟩
    rw [hl]
    match L, hL2 with
    | _ :: _ :: _, _ => rfl
  · exact ⟨[m], SL.single ⟨h1, h2, hs⟩, by simpa using h4, rfl⟩

theorem TE.zero : TE cfg (Expr.zero : Expr D) := ⟨[], SL.nil, by simp, rfl⟩

theorem Tm.te {e : Expr D} (h : Tm cfg (QF cfg) e) : TE cfg e := by
  rcases h with rfl | ⟨m, h1, h2, h3, h4, rfl⟩
  · exact TE.zero
  · exact TE.of_term h1 h2 h3 (.inl h4)

theorem EP.te {e : Expr D} (h : EP cfg (Nb cfg) e) : TE cfg e := by
  obtain ⟨L, hL, rfl⟩ := h
  exact ⟨L, hL.sl, fun m hm => .inl fun f hf => ((hL.sb m hm f hf).uf ((hL.sl.sm m hm).facs f hf)).qf, rfl⟩

theorem TE.isUndefined {e : Expr D} (h : TE cfg e) : e.isUndefined = false := by
  rcases h.term with rfl | ⟨m, _, h2, _, _, rfl⟩
  · rw [zero_eq]; rfl
  · exact mexpr_isUndefined h2.facs

/-- Sums. -/
theorem tot_sum_te (hc : cfg.Ok) {es : List (Expr D)} (hne : es ≠ []) (h : ∀ e ∈ es, TE cfg e) :
    ∃ r, Tot cfg (fun E => sumCreate E es) r ∧ TE cfg r := by
  have : ∃ Ls : List (List (Mo D)), (∀ L ∈ Ls, SL cfg L ∧ ∀ m ∈ L, TT cfg m.2) ∧ es = Ls.map (fun L => sumOf (L.map em)) := by
    clear hne
    induction es with
    | nil => exact ⟨[], by simp, rfl⟩
    | cons e es ih =>
      obtain ⟨Ls, h1, h2⟩ := ih fun x hx => h x (by simp [hx])
      obtain ⟨L, hL, hf, rfl⟩ := h e (by simp)
      refine ⟨L :: Ls, ?_, by simp [h2]⟩
      intro M hM
      rcases List.mem_cons.1 hM with rfl | hM
      exacts [⟨hL, hf⟩, h1 M hM]
  obtain ⟨Ls, h1, rfl⟩ := this
  obtain ⟨R, hT, hR⟩ := tot_sumCreate hc (Ls := Ls) (by rintro rfl; simp at hne) fun L hL => (h1 L hL).1
  refine ⟨_, hT, R, hR.sl, fun m hm => ?_, rfl⟩
  obtain ⟨L, hL, n, hn, e⟩ := hR.mem hm
  rw [← e]
  exact (h1 L hL).2 n hn

/-- A product in a sum, times powers of symbols and reciprocals. -/
theorem TT.mul {P Q R : List (Expr D × ℤ)} (hT : TT cfg P) (hP : Can cfg P) (hQ : ∀ f ∈ Q, UF cfg f) (hR : Nf cfg (P ++ Q) R) : TT cfg R := by
  have hqf : (∀ f ∈ P, QF cfg f) → TT cfg R := fun h => .inl (cl_qf.app hR fun f hf => by
    rcases List.mem_append.1 hf with hf | hf
    exacts [h f hf, (hQ f hf).1])
  rcases hT with h | ⟨S, hS, h⟩
  · exact hqf h
  by_cases hx : XB cfg S
  · exact hqf fun f hf => by
      rcases h f hf with rfl | h
      exacts [hx, h.1]
  right
  refine ⟨S, hS, fun f hf => ?_⟩
  obtain ⟨h1, h2⟩ := hR.exp hf
  rw [cnt_append, Finsupp.add_apply] at h1
  by_cases e : f.1 = S
  · left
    have hq : cnt Q f.1 = 0 := cnt_none fun g hg e' => hx (by rw [← e, ← e']; exact (hQ g hg).1)
    rw [hq, add_zero] at h1
    have : f ∈ P := (hP.mem_iff f).2 ⟨h1.symm, h2⟩
    rcases h f this with h | h
    · exact h
    · exact absurd (e ▸ h.1) hx
  · right
    obtain ⟨g, hg, e'⟩ := hR.sub f hf
    have hu : ∀ g ∈ P ++ Q, g.1 = f.1 → UF cfg g := by
      intro g hg e'
      rcases List.mem_append.1 hg with hg | hg
      · rcases h g hg with rfl | h
        exacts [absurd e'.symm e, h]
      · exact hQ g hg
    refine ⟨e' ▸ (hu g hg e').1, ?_⟩
    by_cases hs : ∃ s, f.1 = .sym s
    · exact .inr hs
    · left
      have := cnt_neg (P := P ++ Q) (b := f.1) fun g hg e' => by
        rcases (hu g hg e').2 with h | h
        · exact h
        · rw [e'] at h; exact absurd h hs
      rw [cnt_append, Finsupp.add_apply] at this
      omega

/-- What becomes of a number times a sum. -/
theorem TT.tot_nx (hc : cfg.Ok) (hp : cfg.maxPrime < 324) (hσ : σ.Respects) {q : ℚ} {R : List (Expr D × ℤ)} (hR : TT cfg R) (hn : Nx q R)
    (hv : ∀ f ∈ R, Val σ f.1) : ∃ r, Tot cfg (fun E => expandAsProduct E (rl q R)) r ∧ TE cfg r := by
  obtain ⟨hq, l, rfl⟩ := hn
  have hlv := hv _ (List.mem_singleton_self _)
  obtain ⟨L, hL, h2, hT, e⟩ := hR.sum_cases
  obtain ⟨s, hs, es⟩ := (XT.mk hL h2 hT).expand hc hp hσ (by rw [← e]; exact hlv)
  rw [← e] at hs
  have hrl : rl q [((.sum l : Expr D), (1 : ℤ))] = [.num (.rat q), .sum l] := by rw [rl_ne hq]; simp [fac]
  rw [hrl]
  obtain ⟨rs, f2, hT⟩ := tot_defScalarAndSums (cfg := cfg) (l := [.num (.rat q), .sum l])
    (Q := fun e r => EP cfg (Nb cfg) r ∧ (e ≠ .sum l → r.isSum = false)) (by
    intro x hx
    simp only [List.mem_cons, List.not_mem_nil, or_false] at hx
    rcases hx with rfl | rfl
    · exact ⟨_, tot_expand_num _, EP.num kl_nb _, fun _ => rfl⟩
    · exact ⟨s, hs, es, fun h => absurd rfl h⟩)
  obtain ⟨r, h1, h2⟩ := tot_eap hc hp hσ hT (fun r hr => by
    obtain ⟨x, hx, h1, h2, _⟩ := forall2_mem f2 r hr
    have : Val σ x := by
      simp only [List.mem_cons, List.not_mem_nil, or_false] at hx
      rcases hx with rfl | rfl
      exacts [⟨_, rfl⟩, hlv]
    obtain ⟨w, hw⟩ := this
    exact ⟨h2, w, tv_expand hc hσ h1 hw⟩) (.inr (by
    refine le_trans (filter_count (s := .sum l) ?_ f2) ?_
    · intro e r h hr
      by_contra hn
      rw [h.2.2 hn] at hr; cases hr
    · rw [← hrl]; exact count_fac (by simp) l))
  exact ⟨r, h1, h2.te⟩

/-- A sum of fractions times powers of symbols and reciprocals, in either order. -/
theorem tot_mul_te (hc : cfg.Ok) (hp : cfg.maxPrime < 324) (hσ : σ.Respects) {e u : Expr D} (he : TE cfg e) (hu : Tm cfg (UF cfg) u)
    (hev : Val σ e) (huv : Val σ u) {l : List (Expr D)} (hl : l = [e, u] ∨ l = [u, e]) :
    ∃ r, Tot cfg (fun E => prodCreate E l) r ∧ TE cfg r := by
  have hU : l.any Expr.isUndefined = false := by
    rcases hl with rfl | rfl <;> simp [he.isUndefined, hu.isUndefined]
  have hz : e = zero ∨ u = zero → ∃ r, Tot cfg (fun E => prodCreate E l) r ∧ TE cfg r := by
    intro h
    have hZ : l.any Expr.isZero = true := by
      have hz : (Expr.zero : Expr D).isZero = true := by rw [zero_eq, isZero_ratE]; simp
      rcases hl with rfl | rfl <;> rcases h with rfl | rfl <;> simp [hz]
    refine ⟨Expr.zero, ?_, TE.zero⟩
    unfold prodCreate
    simp only [hU, hZ, Bool.false_eq_true, if_false, if_true]; exact tot_pure _
  rcases he.term with h0 | ⟨m, h1, h2, h3, h4, rfl⟩
  · exact hz (.inl h0)
  rcases hu with h0 | ⟨n, k1, k2, k3, k4, rfl⟩
  · exact hz (.inr h0)
  have hev' := val_fac_mexpr hev
  have huv' := val_fac_mexpr huv
  obtain ⟨Ms, hMs, hMl, hMf, hMq⟩ : ∃ Ms : List (Mo D), l = Ms.map em ∧ Ms.length = 2 ∧
      ((∀ x ∈ Ms, x.1 ≠ 0 ∧ ZFs cfg x.2)) ∧ ∀ R, Nf cfg (Ms.flatMap (·.2)) R → Nf cfg (m.2 ++ n.2) R := by
    rcases hl with rfl | rfl
    · refine ⟨[m, n], rfl, rfl, ?_, fun R h => by simpa using h⟩
      simp only [List.mem_cons, List.not_mem_nil, or_false, forall_eq_or_imp, forall_eq]
      exact ⟨⟨h1, h2.facs⟩, k1, k2.facs⟩
    · refine ⟨[n, m], rfl, rfl, ?_, fun R h => ⟨h.can, ?_⟩⟩
      · simp only [List.mem_cons, List.not_mem_nil, or_false, forall_eq_or_imp, forall_eq]
        exact ⟨⟨k1, k2.facs⟩, h1, h2.facs⟩
      · rw [h.cnt]; simp [cnt_append, add_comm]
  obtain ⟨R, hR, t1, t2⟩ := tot_prodCreate hc hMf (by omega)
  have hR := hMq R hR
  have hq := prod_ne_zero fun m hm => (hMf m hm).1
  have hT := h4.mul h2 k4 hR
  generalize (Ms.map (·.1)).prod = q at hq t1 t2
  rw [hMs]
  by_cases hn : Nx q R
  · obtain ⟨r, hr, tr⟩ := hT.tot_nx hc hp hσ hn (by
      intro f hf
      obtain ⟨g, hg, e⟩ := hR.sub f hf
      rw [← e]
      rcases List.mem_append.1 hg with hg | hg
      · obtain ⟨x, hx, _⟩ := val_fac (hev' g hg); exact ⟨x, hx⟩
      · obtain ⟨x, hx, _⟩ := val_fac (huv' g hg); exact ⟨x, hx⟩)
    exact ⟨r, t2 hn r hr, tr⟩
  · exact ⟨_, t1 hn, TE.of_term (m := (q, R)) hq hR.can hn hT⟩

end Zf
end Tsym
