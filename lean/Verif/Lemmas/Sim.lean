import Verif.Lemmas.Fold
import Verif.Lemmas.Yields

/-!
# Terms of the same shape behave the same

A relation between terms in their scopes that is symmetric, keeps the shape of terms and is respected by the
meaning of rule names, grammars in braces and wrappers, is respected by the semantics.
-/

namespace Wbnf

variable {E : Engine} {X : Externals}

abbrev TermRel := List Grammar → Term → List Grammar → Term → Prop

/-- Lists of terms related one by one. -/
inductive RList (R : TermRel) (Γ Γ' : List Grammar) : List Term → List Term → Prop
  | nil : RList R Γ Γ' [] []
  | cons {t t' ts ts'} : R Γ t Γ' t' → RList R Γ Γ' ts ts' → RList R Γ Γ' (t :: ts) (t' :: ts')

/-- From a term to what is inside the braces around it. -/
inductive Peels : List Grammar → Term → List Grammar → Term → Prop
  | refl {Γ t} : Peels Γ t Γ t
  | step {Γ t g g' Γ₁ t₁} : Enters Γ g g' → Peels (g' :: Γ) t Γ₁ t₁ → Peels Γ (.scope t g) Γ₁ t₁

/-- Related up to braces around the whole term. -/
def Peeled (R : TermRel) : TermRel := fun Γ t Γ' t' =>
  ∃ Γ₁ t₁ Γ₁' t₁', Peels Γ t Γ₁ t₁ ∧ Peels Γ' t' Γ₁' t₁' ∧ R Γ₁ t₁ Γ₁' t₁'

theorem Peeled.of {R : TermRel} {Γ t Γ' t'} (h : R Γ t Γ' t') : Peeled R Γ t Γ' t' :=
  ⟨_, _, _, _, .refl, .refl, h⟩

theorem Peels.peg {Γ t Γ₁ t₁} (h : Peels Γ t Γ₁ t₁) {rule vals inp o} (hp : Peg E X (.term Γ₁ rule t₁ vals inp) o) :
    Peg E X (.term Γ rule t vals inp) o := by
  induction h with
  | refl => exact hp
  | step he _ ih => exact .scope he (ih hp)

theorem Peels.isCut {Γ t Γ₁ t₁} (h : Peels Γ t Γ₁ t₁) (hp : IsCut Γ₁ t₁) : IsCut Γ t := by
  induction h with
  | refl => exact hp
  | step he _ ih => exact .scope he (ih hp)

structure SameShape (R : TermRel) : Prop where
  symm : ∀ {Γ t Γ' t'}, R Γ t Γ' t' → R Γ' t' Γ t
  ident : ∀ {Γ t Γ' t'}, R Γ t Γ' t' → identFromTerm t = identFromTerm t'
  rule : ∀ {Γ r Γ' t'}, R Γ (.rule r) Γ' t' → t' = .rule r ∧
    ∀ {Γ₁ t₁}, Resolves Γ r Γ₁ t₁ → ∃ Γ₁' t₁', Resolves Γ' r Γ₁' t₁' ∧ Peeled R Γ₁ t₁ Γ₁' t₁'
  lit : ∀ {Γ l Γ' t'}, R Γ (.s l) Γ' t' → t' = .s l ∧
    ∀ {group p}, LeafPattern (wrapOf Γ) l group p → LeafPattern (wrapOf Γ') l group p
  re : ∀ {Γ l Γ' t'}, R Γ (.re l) Γ' t' → t' = .re l ∧
    ∀ {group p}, LeafPattern (wrapOf Γ) l group p → LeafPattern (wrapOf Γ') l group p
  ref : ∀ {Γ i d Γ' t'}, R Γ (.ref i d) Γ' t' → t' = .ref i d
  ext : ∀ {Γ x Γ' t'}, R Γ (.ext x) Γ' t' → t' = .ext x
  seq : ∀ {Γ ts Γ' t'}, R Γ (.seq ts) Γ' t' → ∃ ts', t' = .seq ts' ∧ RList R Γ Γ' ts ts'
  oneof : ∀ {Γ ts Γ' t'}, R Γ (.oneof ts) Γ' t' → ∃ ts', t' = .oneof ts' ∧ RList R Γ Γ' ts ts'
  delim : ∀ {Γ t sep a cs ce Γ' t'}, R Γ (.delim t sep a cs ce) Γ' t' → ∃ u sep', t' = .delim u sep' a cs ce ∧
    R Γ (.seq (delimSeq t sep cs ce)) Γ' (.seq (delimSeq u sep' cs ce))
  look : ∀ {Γ t Γ' t'}, R Γ (.look t) Γ' t' → ∃ u, t' = .look u ∧ R Γ t Γ' u
  quant : ∀ {Γ t lo hi Γ' t'}, R Γ (.quant t lo hi) Γ' t' → ∃ u, t' = .quant u lo hi ∧ R Γ t Γ' u
  named : ∀ {Γ n t Γ' t'}, R Γ (.named n t) Γ' t' → ∃ u, t' = .named n u ∧ R Γ t Γ' u
  cut : ∀ {Γ t Γ' t'}, R Γ (.cut t) Γ' t' → ∃ u, t' = .cut u ∧ R Γ t Γ' u
  scope : ∀ {Γ t g Γ' t'}, R Γ (.scope t g) Γ' t' → ∃ u g', t' = .scope u g' ∧
    ∀ {g₁}, Enters Γ g g₁ → ∃ g₁', Enters Γ' g' g₁' ∧ R (g₁ :: Γ) t (g₁' :: Γ') u

variable {R : TermRel}

theorem SameShape.peeled (hR : SameShape R) {Γ t Γ' t'} (h : Peeled R Γ t Γ' t') : Peeled R Γ' t' Γ t := by
  obtain ⟨_, _, _, _, h1, h2, h3⟩ := h
  exact ⟨_, _, _, _, h2, h1, hR.symm h3⟩

theorem SameShape.isCut (hR : SameShape R) {Γ t} (h : IsCut Γ t) : ∀ {Γ' t'}, Peeled R Γ t Γ' t' → IsCut Γ' t' := by
  induction h with
  | cut =>
    rintro Γ' t' ⟨_, _, _, _, p1, p2, h⟩
    cases p1; obtain ⟨u, rfl, _⟩ := hR.cut h; exact p2.isCut .cut
  | named _ ih =>
    rintro Γ' t' ⟨_, _, _, _, p1, p2, h⟩
    cases p1; obtain ⟨u, rfl, h2⟩ := hR.named h; exact p2.isCut (.named (ih (.of h2)))
  | rule hr _ ih =>
    rintro Γ' t' ⟨_, _, _, _, p1, p2, h⟩
    cases p1
    obtain ⟨rfl, h2⟩ := hR.rule h
    obtain ⟨_, _, h1, h3⟩ := h2 hr
    exact p2.isCut (.rule h1 (ih h3))
  | scope he _ ih =>
    rintro Γ' t' ⟨_, _, _, _, p1, p2, h⟩
    cases p1 with
    | refl =>
      obtain ⟨u, g', rfl, h2⟩ := hR.scope h
      obtain ⟨_, h1, h3⟩ := h2 he
      exact p2.isCut (.scope h1 (ih (.of h3)))
    | step he' p1 =>
      obtain rfl := he.det he'
      exact ih ⟨_, _, _, _, p1, p2, h⟩

theorem SameShape.isCut_iff (hR : SameShape R) {Γ t Γ' t'} (h : R Γ t Γ' t') : IsCut Γ t ↔ IsCut Γ' t' :=
  ⟨fun hc => hR.isCut hc (.of h), fun hc => hR.isCut hc (.of (hR.symm h))⟩

/-- Related goals. -/
inductive SimGoal (R : TermRel) : Goal → Goal → Prop
  | term {Γ rule t vals inp Γ' t'} : Peeled R Γ t Γ' t' → SimGoal R (.term Γ rule t vals inp) (.term Γ' rule t' vals inp)
  | seq {Γ ts vals c inp Γ' ts'} : RList R Γ Γ' ts ts' → SimGoal R (.seq Γ ts vals c inp) (.seq Γ' ts' vals c inp)
  | reps {Γ t vals left inp Γ' t'} : R Γ t Γ' t' → SimGoal R (.reps Γ t vals left inp) (.reps Γ' t' vals left inp)
  | alts {Γ tag ts i vals inp Γ' ts'} : RList R Γ Γ' ts ts' →
      SimGoal R (.alts Γ tag ts i vals inp) (.alts Γ' tag ts' i vals inp)

/-- Related goals have the same outcomes. -/
theorem Peg.sim (hR : SameShape R) {G o} (h : Peg E X G o) : ∀ {G'}, SimGoal R G G' → Peg E X G' o := by
  induction h with
  | rule hr _ ih =>
    intro G' hG
    cases hG with
    | term e =>
      obtain ⟨_, _, _, _, p1, p2, e⟩ := e
      cases p1
      obtain ⟨rfl, e2⟩ := hR.rule e
      obtain ⟨_, _, h1, h3⟩ := e2 hr
      exact p2.peg (.rule h1 (ih (.term h3)))
  | named _ ih =>
    intro G' hG
    cases hG with | term e =>
      obtain ⟨_, _, _, _, p1, p2, e⟩ := e; cases p1
      obtain ⟨u, rfl, e2⟩ := hR.named e; exact p2.peg (.named (ih (.term (.of e2))))
  | cut _ ih =>
    intro G' hG
    cases hG with | term e =>
      obtain ⟨_, _, _, _, p1, p2, e⟩ := e; cases p1
      obtain ⟨u, rfl, e2⟩ := hR.cut e; exact p2.peg (.cut (ih (.term (.of e2))))
  | scope he _ ih =>
    intro G' hG
    cases hG with
    | term e =>
      obtain ⟨_, _, _, _, p1, p2, e⟩ := e
      cases p1 with
      | refl =>
        obtain ⟨u, g', rfl, e2⟩ := hR.scope e
        obtain ⟨_, h1, h3⟩ := e2 he
        exact p2.peg (.scope h1 (ih (.term (.of h3))))
      | step he' p1 =>
        obtain rfl := he.det he'
        exact ih (.term ⟨_, _, _, _, p1, p2, e⟩)
  | lit hp ho =>
    intro G' hG
    cases hG with | term e =>
      obtain ⟨_, _, _, _, p1, p2, e⟩ := e; cases p1
      obtain ⟨rfl, e2⟩ := hR.lit e; exact p2.peg (.lit (e2 hp) ho)
  | regexp hp ho =>
    intro G' hG
    cases hG with | term e =>
      obtain ⟨_, _, _, _, p1, p2, e⟩ := e; cases p1
      obtain ⟨rfl, e2⟩ := hR.re e; exact p2.peg (.regexp (e2 hp) ho)
  | seqOk _ ih =>
    intro G' hG
    cases hG with | term e =>
      obtain ⟨_, _, _, _, p1, p2, e⟩ := e; cases p1
      obtain ⟨ts', rfl, e2⟩ := hR.seq e; exact p2.peg (.seqOk (ih (.seq e2)))
  | seqNo _ ho ih =>
    intro G' hG
    cases hG with | term e =>
      obtain ⟨_, _, _, _, p1, p2, e⟩ := e; cases p1
      obtain ⟨ts', rfl, e2⟩ := hR.seq e; exact p2.peg (.seqNo (ih (.seq e2)) ho)
  | itemsNil => intro G' hG; cases hG with | seq e => cases e; exact .itemsNil
  | itemsCons _ hc _ ih1 ih2 =>
    intro G' hG
    cases hG with
    | seq e => cases e with
      | cons e es =>
        exact .itemsCons (ih1 (.term (.of e))) (by rw [hc, hR.isCut_iff e]) (hR.ident e ▸ ih2 (.seq es))
  | itemsLater _ hc _ ho ih1 ih2 =>
    intro G' hG
    cases hG with
    | seq e => cases e with
      | cons e es =>
        exact .itemsLater (ih1 (.term (.of e))) (by rw [hc, hR.isCut_iff e]) (hR.ident e ▸ ih2 (.seq es)) ho
  | itemsFail _ ih =>
    intro G' hG
    cases hG with | seq e => cases e with | cons e es => exact .itemsFail (ih (.term (.of e)))
  | itemsAbort _ ih =>
    intro G' hG
    cases hG with | seq e => cases e with | cons e es => exact .itemsAbort (ih (.term (.of e)))
  | oneof _ ih =>
    intro G' hG
    cases hG with | term e =>
      obtain ⟨_, _, _, _, p1, p2, e⟩ := e; cases p1
      obtain ⟨ts', rfl, e2⟩ := hR.oneof e; exact p2.peg (.oneof (ih (.alts e2)))
  | altsNil => intro G' hG; cases hG with | alts e => cases e; exact .altsNil
  | altsOk _ ih =>
    intro G' hG
    cases hG with | alts e => cases e with | cons e es => exact .altsOk (ih (.term (.of e)))
  | altsAbort _ ih =>
    intro G' hG
    cases hG with | alts e => cases e with | cons e es => exact .altsAbort (ih (.term (.of e)))
  | altsNext _ _ ih1 ih2 =>
    intro G' hG
    cases hG with | alts e => cases e with | cons e es => exact .altsNext (ih1 (.term (.of e))) (ih2 (.alts es))
  | quantOk _ hl ih =>
    intro G' hG
    cases hG with | term e =>
      obtain ⟨_, _, _, _, p1, p2, e⟩ := e; cases p1
      obtain ⟨u, rfl, e2⟩ := hR.quant e; exact p2.peg (.quantOk (ih (.reps e2)) hl)
  | quantFew _ hl ih =>
    intro G' hG
    cases hG with | term e =>
      obtain ⟨_, _, _, _, p1, p2, e⟩ := e; cases p1
      obtain ⟨u, rfl, e2⟩ := hR.quant e; exact p2.peg (.quantFew (ih (.reps e2)) hl)
  | quantAbort _ ih =>
    intro G' hG
    cases hG with | term e =>
      obtain ⟨_, _, _, _, p1, p2, e⟩ := e; cases p1
      obtain ⟨u, rfl, e2⟩ := hR.quant e; exact p2.peg (.quantAbort (ih (.reps e2)))
  | repsMax => intro G' hG; cases hG with | reps e => exact .repsMax
  | repsStop hl _ ih => intro G' hG; cases hG with | reps e => exact .repsStop hl (ih (.term (.of e)))
  | repsMore hl _ _ ih1 ih2 =>
    intro G' hG; cases hG with | reps e => exact .repsMore hl (ih1 (.term (.of e))) (ih2 (.reps e))
  | repsLater hl _ _ ih1 ih2 =>
    intro G' hG; cases hG with | reps e => exact .repsLater hl (ih1 (.term (.of e))) (ih2 (.reps e))
  | repsAbort hl _ ih => intro G' hG; cases hG with | reps e => exact .repsAbort hl (ih (.term (.of e)))
  | lookOk _ ih =>
    intro G' hG
    cases hG with | term e =>
      obtain ⟨_, _, _, _, p1, p2, e⟩ := e; cases p1
      obtain ⟨u, rfl, e2⟩ := hR.look e; exact p2.peg (.lookOk (ih (.term (.of e2))))
  | lookNo _ ho ih =>
    intro G' hG
    cases hG with | term e =>
      obtain ⟨_, _, _, _, p1, p2, e⟩ := e; cases p1
      obtain ⟨u, rfl, e2⟩ := hR.look e; exact p2.peg (.lookNo (ih (.term (.of e2))) ho)
  | delimOk _ hf ih =>
    intro G' hG
    cases hG with | term e =>
      obtain ⟨_, _, _, _, p1, p2, e⟩ := e; cases p1
      obtain ⟨u, s', rfl, e2⟩ := hR.delim e; exact p2.peg (.delimOk (ih (.term (.of e2))) hf)
  | delimNo _ ho ih =>
    intro G' hG
    cases hG with | term e =>
      obtain ⟨_, _, _, _, p1, p2, e⟩ := e; cases p1
      obtain ⟨u, s', rfl, e2⟩ := hR.delim e; exact p2.peg (.delimNo (ih (.term (.of e2))) ho)
  | refOk hl ht hq hp he => intro G' hG; cases hG with | term e =>
      obtain ⟨_, _, _, _, p1, p2, e⟩ := e; cases p1
      obtain rfl := hR.ref e; exact p2.peg (.refOk hl ht hq hp he)
  | refDiffers hl ht hq hp he =>
    intro G' hG; cases hG with | term e =>
      obtain ⟨_, _, _, _, p1, p2, e⟩ := e; cases p1
      obtain rfl := hR.ref e; exact p2.peg (.refDiffers hl ht hq hp he)
  | refNo hl ht hq hp ho => intro G' hG; cases hG with | term e =>
      obtain ⟨_, _, _, _, p1, p2, e⟩ := e; cases p1
      obtain rfl := hR.ref e; exact p2.peg (.refNo hl ht hq hp ho)
  | refDefault hl hq hp => intro G' hG; cases hG with | term e =>
      obtain ⟨_, _, _, _, p1, p2, e⟩ := e; cases p1
      obtain rfl := hR.ref e; exact p2.peg (.refDefault hl hq hp)
  | refUnbound hl => intro G' hG; cases hG with | term e =>
      obtain ⟨_, _, _, _, p1, p2, e⟩ := e; cases p1
      obtain rfl := hR.ref e; exact p2.peg (.refUnbound hl)
  | extNone hx => intro G' hG; cases hG with | term e =>
      obtain ⟨_, _, _, _, p1, p2, e⟩ := e; cases p1
      obtain rfl := hR.ext e; exact p2.peg (.extNone hx)
  | ext hx => intro G' hG; cases hG with | term e =>
      obtain ⟨_, _, _, _, p1, p2, e⟩ := e; cases p1
      obtain rfl := hR.ext e; exact p2.peg (.ext hx)

theorem SameShape.peg_iff (hR : SameShape R) {Γ rule t vals inp Γ' t' o} (h : R Γ t Γ' t') :
    Peg E X (.term Γ rule t vals inp) o ↔ Peg E X (.term Γ' rule t' vals inp) o :=
  ⟨fun hp => hp.sim hR (.term (.of h)), fun hp => hp.sim hR (.term (.of (hR.symm h)))⟩

end Wbnf
