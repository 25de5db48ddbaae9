import Verif.Model.Parse

/-! Unfolding equations of the compiler and the parser, one per kind of term. -/

namespace Wbnf

section
variable (E : Engine) (n : Nat) (c : Cache) (rule : Str)

theorem compileTerm_zero (t) : compileTerm E 0 c rule t = .error .oof := rfl
theorem compileTerm_rule (r) : compileTerm E (n + 1) c rule (.rule r) = .ok (.rule r) := rfl
theorem compileTerm_s (l) : compileTerm E (n + 1) c rule (.s l) = compileS E c rule l := rfl
theorem compileTerm_re (l) : compileTerm E (n + 1) c rule (.re l) = compileRE E c rule l := rfl
theorem compileTerm_ref (i d) : compileTerm E (n + 1) c rule (.ref i d) = .ok (.ref i d) := rfl
theorem compileTerm_ext (x) : compileTerm E (n + 1) c rule (.ext x) = .ok (.ext x) := rfl
theorem compileTerm_seq (ts) : compileTerm E (n + 1) c rule (.seq ts) =
    (makeParsers c (compileTerm E n c []) ts).bind fun ps => .ok (.seq rule ts ps) := rfl
theorem compileTerm_oneof (ts) : compileTerm E (n + 1) c rule (.oneof ts) =
    (makeParsers c (compileTerm E n c []) ts).bind fun ps => .ok (.oneof rule ts ps) := rfl
theorem compileTerm_stack (ts) : compileTerm E (n + 1) c rule (.stack ts) = .error .panic := rfl
theorem compileTerm_delim (term sep a cs ce) : compileTerm E (n + 1) c rule (.delim term sep a cs ce) =
    (compileTerm E n c rule (.seq (delimSeq term sep cs ce))).bind fun child =>
      (c.register child).bind fun child' => .ok (.delim rule term sep a cs ce child') := rfl
theorem compileTerm_look (t) : compileTerm E (n + 1) c rule (.look t) =
    (compileTerm E n c [] t).bind fun p =>
      (c.register p).bind fun p' => .ok (.look rule (.look t) p') := rfl
theorem compileTerm_quant (t lo hi) : compileTerm E (n + 1) c rule (.quant t lo hi) =
    (compileTerm E n c [] t).bind fun p =>
      (c.register p).bind fun p' => .ok (.quant rule (.quant t lo hi) lo hi p') := rfl
theorem compileTerm_named (name t) : compileTerm E (n + 1) c rule (.named name t) =
    compileTerm E n c name t := rfl
theorem compileTerm_scope (t g) : compileTerm E (n + 1) c rule (.scope t g) =
    (prepare g).bind fun g1 =>
      (compileRules n (inheritWrap c.wrap g1) (compileTerm E n (cacheFor (inheritWrap c.wrap g1)))
        (inheritWrap c.wrap g1)).bind fun frame =>
      (compileTerm E n (cacheFor (inheritWrap c.wrap g1)) rule t).bind fun p =>
        .ok (scopeResult frame p) := rfl
theorem compileTerm_cut (t) : compileTerm E (n + 1) c rule (.cut t) =
    (compileTerm E n c rule t).bind fun p => .ok (.cut p (.cut t)) := rfl
end

section
variable (E : Engine) (X : Externals) (ρ : Nat → Nat) (n : Nat) (env : List Frame)
  (sc : Scope) (inp : Scanner) (k : Nat)

theorem parse_zero (p) : parse E X ρ 0 env p sc inp k = .oof := rfl
theorem parse_rule (r) : parse E X ρ (n + 1) env (.rule r) sc inp k = .panic := rfl
theorem parse_link (r) : parse E X ρ (n + 1) env (.link r) sc inp k =
    .ofOption (lookupEnv r env) fun q => parse E X ρ n q.2 q.1 sc inp k := rfl
theorem parse_s (rule t re) : parse E X ρ (n + 1) env (.s rule t re) sc inp k =
    escaping E X rule (.s t) sc inp k (eatLeaf (E.find re) sc inp k) := rfl
theorem parse_re (rule t re) : parse E X ρ (n + 1) env (.re rule t re) sc inp k =
    escaping E X rule (.re t) sc inp k (eatLeaf (E.find re) sc inp k) := rfl
theorem parse_seq (rule ts ps) : parse E X ρ (n + 1) env (.seq rule ts ps) sc inp k =
    escaping E X [] (.seq ts) sc inp k
      ((seqLoop ρ (parse E X ρ n env) (isCutItem env) ((ts.map identFromTerm).zip ps) sc inp k).bind
        fun vs i k' => .ok (.node (ruleOrAlt rule seqTag) .nil vs) i k') := rfl
theorem parse_delim (rule term sep a cs ce child) :
    parse E X ρ (n + 1) env (.delim rule term sep a cs ce child) sc inp k =
    escaping E X [] (.delim term sep a cs ce) sc inp k
      ((parse E X ρ n env child sc inp k).bind fun v i k' =>
        .ofOption (delimFinish (ruleOrAlt rule delimTag) a cs ce v) fun v' => .ok v' i k') := rfl
theorem parse_look (rule t q) : parse E X ρ (n + 1) env (.look rule t q) sc inp k =
    escaping E X [] t sc inp k
      (lookResult (ruleOrAlt rule lookaheadTag) inp (parse E X ρ n env q sc inp k)) := rfl
theorem parse_quant (rule t lo hi q) : parse E X ρ (n + 1) env (.quant rule t lo hi q) sc inp k =
    escaping E X [] t sc inp k
      ((quantLoop (fun i k' => parse E X ρ n env q (sc.replaceCutPoint ρ false k).1 i k') hi
        (sc.replaceCutPoint ρ false k).2.2.1 n 0 inp (sc.replaceCutPoint ρ false k).2.2.2).bind
        fun vs i k' =>
          if vs.length ≥ lo then .ok (.node (ruleOrAlt rule quantTag) .nil vs) i k'
          else .err (mkErr (sc.replaceCutPoint ρ false k).2.1) i k') := rfl
theorem parse_oneof (rule ts ps) : parse E X ρ (n + 1) env (.oneof rule ts ps) sc inp k =
    escaping E X [] (.oneof ts) sc inp k
      (oneofLoop (fun q i k' => parse E X ρ n env q (sc.replaceCutPoint ρ false k).1 i k')
        (ruleOrAlt rule oneofTag) (sc.replaceCutPoint ρ false k).2.1
        (sc.replaceCutPoint ρ false k).2.2.1 inp ps 0 inp (sc.replaceCutPoint ρ false k).2.2.2) := rfl
theorem parse_ref (ident dflt) : parse E X ρ (n + 1) env (.ref ident dflt) sc inp k =
    escaping E X [] (.ref ident dflt) sc inp k
      (match sc.getVal ident with
        | some expected =>
          refExpect (compileTerm E n ⟨none, true⟩ ident) (fun q => parse E X ρ n [] q sc inp k) expected
        | none =>
          refDefault (compileTerm E n ⟨none, true⟩ ident) (fun q => parse E X ρ n [] q sc inp k)
            dflt inp k) := rfl
theorem parse_ext (name) : parse E X ρ (n + 1) env (.ext name) sc inp k =
    escaping E X [] (.ext name) sc inp k
      (match X.refs name with
        | none => .err (.fatal 1) inp k
        | some fn => extResult (fn ⟨sc.getVal, sc.cp, [], none⟩ inp) k) := rfl
theorem parse_scope (f b) : parse E X ρ (n + 1) env (.scope f b) sc inp k =
    parse E X ρ n (f :: env) b sc inp k := rfl
theorem parse_cut (q t) : parse E X ρ (n + 1) env (.cut q t) sc inp k =
    parse E X ρ n env q sc inp k := rfl
end

end Wbnf
