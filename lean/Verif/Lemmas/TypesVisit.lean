import Verif.Spec.TypesWalk
import Verif.Lemmas.TypesVisitCode

/-!
# What a generated walker does with a tree
-/

namespace Wbnf

theorem find?_unique {α : Type} {p : α → Bool} {a : α} : ∀ {l : List α}, a ∈ l → p a = true → (∀ b ∈ l, p b = true → b = a) → l.find? p = some a
  | b :: l, hm, hp, hu => by
    rw [List.find?_cons]
    cases hb : p b
    · simp only
      rcases List.mem_cons.1 hm with rfl | hm
      · simp [hb] at hp
      · exact find?_unique hm hp fun c hc => hu c (by simp [hc])
    · simp only [Option.some.injEq]
      exact hu b (by simp) hb

theorem inj_of_nodup {α β : Type} {f : α → β} : ∀ {l : List α}, (l.map f).Nodup → ∀ a ∈ l, ∀ b ∈ l, f a = f b → a = b
  | c :: l, h, a, ha, b, hb, e => by
    simp only [List.map_cons, List.nodup_cons] at h
    rcases List.mem_cons.1 ha with h1 | h1 <;> rcases List.mem_cons.1 hb with h2 | h2
    · rw [h1, h2]
    · subst h1; exact absurd (e ▸ List.mem_map_of_mem h2) h.1
    · subst h2; exact absurd (e ▸ List.mem_map_of_mem h1) h.1
    · exact inj_of_nodup h.2 a h1 b h2 e

theorem size_lookup {k : Str} {kids : Kids} : ∀ {b : Branch}, lookup k b = some kids → sizeOf kids < sizeOf b
  | (k', c) :: b, h => by
    simp only [lookup] at h
    split at h
    · obtain rfl := Option.some.inj h
      simp only [List.cons.sizeOf_spec, Prod.mk.sizeOf_spec]
      omega
    · have := size_lookup h
      simp only [List.cons.sizeOf_spec]
      omega

theorem size_all {n c : Ast} {k : Str} (h : c ∈ n.all k) : sizeOf c < sizeOf n := by
  cases n with
  | leaf => simp [Ast.all, Ast.one?, Ast.many?] at h
  | extra => simp [Ast.all, Ast.one?, Ast.many?] at h
  | branch b =>
    simp only [Ast.all, Ast.one?, Ast.many?, Branch.one?, Branch.many?] at h
    cases hl : lookup k b with
    | none => simp [hl] at h
    | some kids =>
      have := size_lookup hl
      cases kids with
      | one n =>
        simp [hl] at h
        subst h
        simp only [Kids.one.sizeOf_spec, Ast.branch.sizeOf_spec] at *
        omega
      | many ns =>
        simp [hl] at h
        have := List.sizeOf_lt_of_mem h
        simp only [Kids.many.sizeOf_spec, Ast.branch.sizeOf_spec] at *
        omega

theorem first_all {n : Ast} {k : Str} : n.first k = (n.all k).head? := by
  simp only [Ast.first, Ast.all]
  cases n.one? k <;> rfl

theorem size_returned {n : Ast} {d : GoMethod} {k} (h : k ∈ d.returned n) : sizeOf k.2 < sizeOf n := by
  cases d with
  | oneNode x ty =>
    simp only [GoMethod.returned, GoMethod.run, List.mem_map, Option.mem_toList, first_all] at h
    obtain ⟨c, hc, rfl⟩ := h
    exact size_all (List.mem_of_mem_head? hc)
  | allNodes x ty =>
    simp only [GoMethod.returned, GoMethod.run, List.mem_map] at h
    obtain ⟨c, hc, rfl⟩ := h
    exact size_all hc
  | text => simp only [GoMethod.returned, GoMethod.run] at h; split at h <;> simp_all
  | choice => simp only [GoMethod.returned, GoMethod.run] at h; split at h <;> simp_all
  | raw => simp [GoMethod.returned, GoMethod.run] at h
  | oneText =>
    simp only [GoMethod.returned, GoMethod.run] at h
    have : ∀ {o : Option Ast} {v}, (o.bind Ast.text).map GoValue.text = some v → ∃ x, v = .text x := by
      intro o v h; simp only [Option.map_eq_some_iff] at h; obtain ⟨x, _, rfl⟩ := h; exact ⟨x, rfl⟩
    split at h <;> rename_i e <;> split at e <;> first | (simp at e h; done) | (obtain ⟨x, hx⟩ := this e; simp at hx)
  | allTexts => simp only [GoMethod.returned, GoMethod.run] at h; split at h <;> simp_all
  | oneToken =>
    simp only [GoMethod.returned, GoMethod.run] at h
    split at h <;> rename_i e <;> (repeat' split at e) <;> simp_all
  | allTokens => simp only [GoMethod.returned, GoMethod.run] at h; split at h <;> simp_all

/-! ## The declarations -/

/-- What is known of the types. -/
structure Declared (camel : Str → Str) (tm : TypeMap) (us : List Usage) : Prop where
  untangled : Untangled camel us
  decl : ∃ rs, DeclOK camel us rs tm
  sound : SoundTypes tm
  closed : ∀ d ∈ allMethods camel tm, ∀ ty, d.does.returns = some ty → ty ∈ allTypes camel tm

section
variable {camel : Str → Str} {tm : TypeMap} {us : List Usage} {upper : Str → Str} {ord : List Member → List Member} {ty : Str}

theorem Declared.keyed (h : Declared camel tm us) : Keyed camel tm := by
  obtain ⟨rs, hd⟩ := h.decl
  exact ⟨hd.keys, hd.declares⟩

theorem Declared.type (h : Declared camel tm us) (ht : ty ∈ allTypes camel tm) : ∃ x, (ty, x) ∈ tm := by
  obtain ⟨e, he, rfl⟩ := List.mem_map.1 ht
  exact ⟨e.2, by rw [h.keyed.2 e he]; exact he⟩

theorem Declared.methods (h : Declared camel tm us) {x} (hx : (ty, x) ∈ tm) {d} (hd : d ∈ allMethods camel tm) (hr : d.receiver = ty) : d ∈ x.methods camel := by
  obtain ⟨rs, hok⟩ := h.decl
  obtain ⟨⟨ty', y⟩, hy, hd⟩ := List.mem_flatMap.1 hd
  have := (type_headers h.untangled hok hy).2 _ (List.mem_map_of_mem hd)
  simp only [MethodDecl.header, hr] at this
  subst this
  have := lookup_of_mem hok.keys hx
  rw [lookup_of_mem hok.keys hy] at this
  obtain rfl := Option.some.inj this
  exact hd

theorem Declared.basic (h : Declared camel tm us) {x} (hx : (ty, .basic x) ∈ tm) : TokenType camel tm ty := by
  have : goTypeName camel x = ty := h.keyed.2 _ hx
  exact ⟨⟨ty, _, .text⟩, List.mem_flatMap.2 ⟨_, hx, by simp only [GoType.methods, List.mem_singleton]; rw [this]⟩, rfl, rfl⟩

theorem Declared.rule (h : Declared camel tm us) {n cs} (hx : (ty, .rule n cs) ∈ tm) : ¬ TokenType camel tm ty := by
  rintro ⟨d, hd, hr, ht⟩
  have := h.methods hx hd hr
  simp only [GoType.methods, List.mem_flatMap] at this
  obtain ⟨m, _, hm⟩ := this
  cases m <;> simp only [Member.methods, ruleMethods, List.mem_append, List.mem_singleton] at hm
  case choice => subst hm; simp at ht
  case backRef => subst hm; simp at ht
  all_goals rcases hm with hm | hm <;> split at hm <;> simp only [List.not_mem_nil, List.mem_singleton] at hm <;> subst hm <;> simp at ht

theorem Declared.children (h : Declared camel tm us) {n cs} (hx : (ty, .rule n cs) ∈ tm) :
    n = ty ∧ ∃ rs, ChildrenOK camel us rs ty cs := by
  obtain ⟨rs, hok⟩ := h.decl
  rcases (hok.types ty _ (lookup_of_mem hok.keys hx)).2 with ⟨e, _⟩ | ⟨cs', e, hc⟩
  · simp at e
  · obtain ⟨rfl, rfl⟩ := GoType.rule.inj e
    exact ⟨rfl, rs, hc⟩

theorem Declared.func (h : Declared camel tm us) {n cs} (hx : (ty, .rule n cs) ∈ tm) :
    (walkFuncs camel ord tm).find? (fun f => f.type = ty) = some ⟨ty, (ord cs).filterMap (Member.walkStep camel tm)⟩ := by
  have hne : cs ≠ [] := fun e => (h.sound _ hx).2 n (by rw [e])
  have hk := h.keyed
  refine find?_unique ?_ (by simp) ?_
  · refine List.mem_filterMap.2 ⟨_, hx, ?_⟩
    have := hk.2 _ hx
    simp only [GoType.children, hne, if_false]
    rw [this]
  · intro f hf he
    obtain ⟨e, he', hf⟩ := List.mem_filterMap.1 hf
    have := hk.2 _ he'
    split at hf
    · simp at hf
    · obtain rfl := Option.some.inj hf
      have e1 : e.1 = ty := by rw [← this]; simpa using he
      obtain ⟨k, x⟩ := e
      simp only at e1
      subst e1
      have h1 := lookup_of_mem hk.1 he'
      rw [lookup_of_mem hk.1 hx] at h1
      obtain rfl := Option.some.inj h1
      simp only [GoType.children]
      rw [this]

theorem Declared.find (h : Declared camel tm us) {x} (hx : (ty, x) ∈ tm) : tm.find? (fun e => e.2.declares camel = ty) = some (ty, x) := by
  have hk := h.keyed
  refine find?_unique hx (by simpa using hk.2 _ hx) ?_
  rintro ⟨k, y⟩ hy he
  have := hk.2 _ hy
  simp only [decide_eq_true_eq] at he
  rw [he] at this
  subst this
  have h1 := lookup_of_mem hk.1 hy
  rw [lookup_of_mem hk.1 hx] at h1
  obtain rfl := Option.some.inj h1
  rfl

theorem returned_step {k : Str} {n : Ast} (st : WalkStep) : (st.does k).returned n = (if st.many then n.all k else (n.first k).toList).map fun c => (st.type, c) := by
  unfold WalkStep.does
  cases st.many <;> simp [GoMethod.returned, GoMethod.run]

theorem Declared.accessor (h : Declared camel tm us) {n cs} (hx : (ty, .rule n cs) ∈ tm) {m} (hm : m ∈ cs) {st} (hs : m.walkStep camel tm = some st) :
    ⟨ty, st.method, st.does m.ident⟩ ∈ allMethods camel tm := by
  obtain ⟨rfl, rs, hc⟩ := h.children hx
  have hr : goTypeName camel m.parent = n := h.untangled.receivers _ (hc.mem m hm)
  refine List.mem_flatMap.2 ⟨_, hx, List.mem_flatMap.2 ⟨m, hm, ?_⟩⟩
  rw [← hr]
  exact walkStep_method hs ((h.sound _ hx).1 m hm)

theorem Declared.kids (h : Declared camel tm us) {x cs} (hx : (ty, .rule x cs) ∈ tm) {m} (hm : m ∈ cs) {st} (hs : m.walkStep camel tm = some st) (n : Ast) :
    st.children camel tm ty n = some (((st.does m.ident).returned n).map Prod.snd) := by
  obtain ⟨rs, hok⟩ := h.decl
  have hf : (allMethods camel tm).find? (fun d => d.receiver = ty ∧ d.name = (if st.many then str "All" else str "One") ++ st.getter) =
      some ⟨ty, st.method, st.does m.ident⟩ := by
    refine find?_unique (h.accessor hx hm hs) (by simp [WalkStep.method]) ?_
    intro d hd he
    simp only [decide_eq_true_eq] at he
    refine inj_of_nodup (methods_nodup h.untangled hok) d hd _ (h.accessor hx hm hs) ?_
    simp [MethodDecl.header, he, WalkStep.method]
  unfold WalkStep.children
  rw [hf]
  simp only [returned_step, List.map_map]
  unfold WalkStep.does
  cases hmany : st.many <;> simp [GoMethod.run, Function.comp_def]

/-- The accessors that the walker calls for some children. -/
def stepDecls (camel : Str → Str) (tm : TypeMap) (ty : Str) (ms : List Member) : List MethodDecl :=
  ms.filterMap fun m => (m.walkStep camel tm).map fun st => ⟨ty, st.method, st.does m.ident⟩

theorem mem_stepDecls {ms : List Member} {d} : d ∈ stepDecls camel tm ty ms ↔ ∃ m ∈ ms, ∃ st, m.walkStep camel tm = some st ∧ d = ⟨ty, st.method, st.does m.ident⟩ := by
  simp only [stepDecls, List.mem_filterMap, Option.map_eq_some_iff]
  constructor
  · rintro ⟨m, hm, st, hs, rfl⟩; exact ⟨m, hm, st, hs, rfl⟩
  · rintro ⟨m, hm, st, hs, rfl⟩; exact ⟨m, hm, st, hs, rfl⟩

theorem does_of (st : WalkStep) (k : Str) : (st.does k).of = some k := by unfold WalkStep.does; split <;> rfl

theorem Declared.steps (h : Declared camel tm us) {x cs} (hx : (ty, .rule x cs) ∈ tm) (n : Ast) : ∀ ms : List Member, (∀ m ∈ ms, m ∈ cs) →
    ∃ ks, stepsChildren camel tm ty n (ms.filterMap (Member.walkStep camel tm)) = some ks ∧
      ks.map Prod.snd = (stepDecls camel tm ty ms).flatMap (fun d => d.does.returned n) ∧
      ∀ k ∈ ks, ∃ m ∈ ms, ∃ st, m.walkStep camel tm = some st ∧ k.1 = st.walker ∧ k.2.1 = st.type
  | [], _ => ⟨[], rfl, rfl, by simp⟩
  | m :: ms, hm => by
    obtain ⟨ks, h1, h2, h3⟩ := h.steps hx n ms fun m' hm' => hm m' (by simp [hm'])
    cases hs : m.walkStep camel tm with
    | none =>
      refine ⟨ks, by simpa [hs] using h1, by simpa [stepDecls, hs] using h2, fun k hk => ?_⟩
      obtain ⟨m', hm', r⟩ := h3 k hk
      exact ⟨m', by simp [hm'], r⟩
    | some st =>
      have hk := h.kids hx (hm m (by simp)) hs n
      refine ⟨((st.does m.ident).returned n).map (fun c => (st.walker, c)) ++ ks, ?_, ?_, ?_⟩
      · simp only [List.filterMap_cons, hs, stepsChildren, hk, h1, returned_step, List.map_map, Function.comp_def]
      · simp only [List.map_append, List.map_map, h2, stepDecls, List.filterMap_cons, hs, Option.map_some, List.flatMap_cons, Function.comp_def, List.map_id']
      · intro k hk
        rcases List.mem_append.1 hk with hk | hk
        · obtain ⟨c, hc, rfl⟩ := List.mem_map.1 hk
          rw [returned_step] at hc
          obtain ⟨c', hc', rfl⟩ := List.mem_map.1 hc
          exact ⟨m, by simp, st, hs, rfl, rfl⟩
        · obtain ⟨m', hm', r⟩ := h3 k hk
          exact ⟨m', by simp [hm'], r⟩

theorem Declared.accessors (h : Declared camel tm us) (ho : Sorts upper ord) {x cs} (hx : (ty, .rule x cs) ∈ tm) :
    Accessors camel tm upper ty (stepDecls camel tm ty (ord cs)) := by
  obtain ⟨rfl, rs, hc⟩ := h.children hx
  obtain ⟨hp, hsort⟩ := ho cs
  refine ⟨?_, ?_, ?_, ?_⟩
  · intro d hd
    obtain ⟨m, hm, st, hs, rfl⟩ := mem_stepDecls.1 hd
    exact ⟨h.accessor hx (hp.mem_iff.1 hm) hs, rfl, by simp [does_of]⟩
  · have hn : ((ord cs).map fun m => (m.ident, m.purpose)).Nodup := (hp.map _).nodup_iff.2 hc.nodup
    have hn : (ord cs).Pairwise fun a b => (a.ident, a.purpose) ≠ (b.ident, b.purpose) := List.pairwise_map.1 hn
    refine List.pairwise_map.2 ?_
    refine List.pairwise_filterMap.2 (hn.imp_of_mem ?_)
    intro a b ha hb hne d hd d' hd' e
    simp only [Option.map_eq_some_iff] at hd hd'
    obtain ⟨st, hs, rfl⟩ := hd
    obtain ⟨st', hs', rfl⟩ := hd'
    simp only [does_of, Option.some.injEq] at e
    have hA : ∀ {m : Member} {st}, m.walkStep camel tm = some st → str "All" ++ goName camel m.ident ∈ (m.usage camel x).accessors camel := by
      intro m st hs
      rcases walkStep_cases hs with ⟨n, p, t, c, rfl, _⟩ | ⟨n, p, rfl, _⟩ <;> simp [Member.usage, Usage.accessors, Member.purpose, Member.ident]
    refine h.untangled.accessors _ (hc.mem a (hp.mem_iff.1 ha)) _ (hc.mem b (hp.mem_iff.1 hb)) rfl hne _ (hA hs) ?_
    rw [e]
    exact hA hs'
  · refine List.pairwise_filterMap.2 (hsort.imp ?_)
    intro a b hlt d hd d' hd' k k' hk hk'
    simp only [Option.map_eq_some_iff] at hd hd'
    obtain ⟨st, hs, rfl⟩ := hd
    obtain ⟨st', hs', rfl⟩ := hd'
    simp only [does_of, Option.some.injEq] at hk hk'
    subst hk; subst hk'
    exact hlt
  · intro d hd hr k hk
    have := h.methods hx hd hr
    simp only [GoType.methods, List.mem_flatMap] at this
    obtain ⟨m, hm, hdm⟩ := this
    have hr' : goTypeName camel m.parent = x := h.untangled.receivers _ (hc.mem m hm)
    have key : ∀ st, m.walkStep camel tm = some st → d.does.of = some m.ident ∧ (d.does.isAll = true → d = ⟨x, st.method, st.does m.ident⟩) →
        ∃ d' ∈ stepDecls camel tm x (ord cs), d'.does.of = some k ∧ (d.does.isAll = true → d' = d) := by
      intro st hs hd
      refine ⟨_, mem_stepDecls.2 ⟨m, hp.mem_iff.2 hm, st, hs, rfl⟩, ?_, fun ha => (hd.2 ha).symm⟩
      rw [does_of, ← hd.1, hk]
    cases m <;> simp only [Member.methods, ruleMethods, List.mem_append, List.mem_singleton] at hdm
    case choice => subst hdm; simp [GoMethod.of] at hk
    case backRef => subst hdm; simp [GoMethod.of] at hk
    case namedToken => rcases hdm with hm | hm <;> split at hm <;> simp only [List.not_mem_nil, List.mem_singleton] at hm <;> subst hm <;> simp [GoMethod.of] at hk
    case unnamedToken => rcases hdm with hm | hm <;> split at hm <;> simp only [List.not_mem_nil, List.mem_singleton] at hm <;> subst hm <;> simp [GoMethod.of] at hk
    case stackBackRef n p =>
      simp only [wantAll, Bool.false_eq_true, if_false, if_true, List.not_mem_nil, false_or, List.mem_singleton] at hdm
      subst hdm
      refine key _ rfl ⟨rfl, fun _ => ?_⟩
      simp only [Member.parent] at hr'
      simp [WalkStep.method, WalkStep.does, hr', Member.ident]
    case namedRule n p t c =>
      simp only [Member.parent] at hr'
      rcases hdm with hm | hm <;> split at hm <;> simp only [List.not_mem_nil, List.mem_singleton] at hm
      · subst hm
        exact key _ rfl ⟨rfl, by simp [GoMethod.isAll]⟩
      · rename_i hall
        subst hm
        refine key _ rfl ⟨rfl, fun _ => ?_⟩
        simp [WalkStep.method, WalkStep.does, hall, hr', Member.ident]

/-- The walker knows which children are tokens, and what to call is declared. -/
theorem Declared.step (h : Declared camel tm us) {x cs} (hx : (ty, .rule x cs) ∈ tm) {m} (hm : m ∈ cs) {st} (hs : m.walkStep camel tm = some st) :
    ∃ y, (st.type, y) ∈ tm ∧ (st.walker = true ↔ y.children ≠ []) := by
  have hd := h.accessor hx hm hs
  obtain ⟨y, hy⟩ := h.type (h.closed _ hd st.type (by simp only [WalkStep.does]; split <;> rfl))
  refine ⟨y, hy, ?_⟩
  have hlook := lookup_of_mem h.keyed.1 hy
  have hsound := h.sound _ hy
  rcases walkStep_cases hs with ⟨n, p, t, c, rfl, _, _, h3, h4⟩ | ⟨n, p, rfl, rfl⟩
  · cases y with
    | basic z =>
      have := h4.2 ⟨z, by rw [← h3]; exact hlook⟩
      simp [this, GoType.children]
    | rule z cs' =>
      have hne : cs' ≠ [] := fun e => hsound.2 z (by rw [e])
      have : st.walker ≠ false := by
        intro e
        obtain ⟨w, hw⟩ := h4.1 e
        rw [← h3, hlook] at hw
        simp at hw
      simp [GoType.children, hne, this]
  · obtain ⟨rfl, rs, hc⟩ := h.children hx
    have hr : goTypeName camel p = x := h.untangled.receivers _ (hc.mem _ hm)
    have := lookup_of_mem h.keyed.1 hx
    simp only [hr] at hlook hy
    rw [hlook] at this
    obtain rfl := Option.some.inj this
    have hne : cs ≠ [] := fun e => by rw [e] at hm; simp at hm
    simp [GoType.children, hne]

/-! ## The walk -/

variable {σ : Type} {ops : Visitor σ} {skip : Str → Ast → Bool}

/-- What a walk returns, where only stopping stoppers are of interest. -/
def Visitor.seen (r : σ × Option Stopper) : σ × Option Stopper :=
  match r with
  | (s, some st) => if st.stops then (s, some st) else (s, none)
  | (s, none) => (s, none)

theorem Visitor.callUntil_append (stop : Stopper → Bool) : ∀ (es es' : List Callback) (s : σ), ops.callUntil stop (es ++ es') s =
    match ops.callUntil stop es s with
    | (s, some st) => (s, some st)
    | (s, none) => ops.callUntil stop es' s
  | [], es', s => rfl
  | e :: es, es', s => by
    simp only [List.cons_append, Visitor.callUntil]
    rcases ops.call e s with ⟨s', _ | st⟩
    · exact Visitor.callUntil_append stop es es' s'
    · by_cases h : stop st
      · simp [h]
      · simp only [h]; exact Visitor.callUntil_append stop es es' s'

/-- A run makes these calls. -/
def Makes (ops : Visitor σ) (run : σ → Option (σ × Option Stopper)) (cs : List Callback) : Prop :=
  ∀ s, ∃ r, run s = some r ∧ Visitor.seen r = ops.callUntil Stopper.stops cs s ∧ ∀ st, r.2 = some st → st.exitNode = false

theorem Makes.rest (hs : ops.Skips (TokenType camel tm) skip) {call : Bool × Str × Ast → σ → Option (σ × Option Stopper)} {n : Ast} : ∀ {ks : List (Bool × Str × Ast)} {css : List (List Callback)},
    List.Forall₂ (fun k cs => Makes ops (call k) cs) ks css → Makes ops (visitRest ops call ty n ks) (css.flatten ++ [.exit ty n])
  | _, _, .nil => by
    intro s
    simp only [visitRest, List.flatten_nil, List.nil_append, Visitor.callUntil, Visitor.call]
    rcases h4 : ops.exit ty n s with ⟨s', _ | st⟩
    · exact ⟨_, rfl, rfl, by simp⟩
    · have h5 := hs.exit ty n s st (by simp [h4])
      by_cases ha : st.abort <;> simp [ha, h5, Visitor.seen, Stopper.stops]
  | k :: ks, cs :: css, .cons hk hr => by
    intro s
    obtain ⟨r, h1, h2, h3⟩ := hk s
    simp only [visitRest, h1, List.flatten_cons, List.append_assoc]
    rw [Visitor.callUntil_append, ← h2]
    rcases r with ⟨s', _ | st⟩
    · exact Makes.rest hs hr s'
    · have h5 := h3 st rfl
      by_cases ha : st.abort
      · simp [ha, h5, Visitor.seen, Stopper.stops]
      · simpa [ha, h5, Visitor.seen, Stopper.stops] using Makes.rest hs hr s'

theorem visitRest_congr {call call' : Bool × Str × Ast → σ → Option (σ × Option Stopper)} {n : Ast} : ∀ (ks : List (Bool × Str × Ast)) (s : σ),
    (∀ k ∈ ks, ∀ s, call k s = call' k s) → visitRest ops call ty n ks s = visitRest ops call' ty n ks s
  | [], _, _ => rfl
  | k :: ks, s, h => by
    simp only [visitRest, h k (by simp)]
    rcases call' k s with _ | ⟨s', _ | st⟩
    · rfl
    · exact visitRest_congr ks s' fun k' hk' => h k' (by simp [hk'])
    · simp only [visitRest_congr ks s' fun k' hk' => h k' (by simp [hk'])]

theorem Tours.of_list {K : Str → Ast → List (Str × Ast) → Prop} {token : Str → Prop} : ∀ {ks : List (Str × Ast)} {css : List (List Callback)},
    List.Forall₂ (fun k cs => Tour K token skip k.1 k.2 cs) ks css → Tours K token skip ks css.flatten
  | _, _, .nil => .nil
  | _, _, .cons h hr => .cons h (Tours.of_list hr)

theorem Declared.visit (h : Declared camel tm us) (ho : Sorts upper ord) (hs : ops.Skips (TokenType camel tm) skip) (N : Nat) :
    ∀ (n : Ast) (ty : Str), sizeOf n < N → ty ∈ allTypes camel tm →
    ∃ cs, Tour (Accessible camel tm upper) (TokenType camel tm) skip ty n cs ∧
      ∀ fuel, N ≤ fuel → Makes ops (Wbnf.visit camel ord tm ops fuel ty n) cs := by
  induction N with
  | zero => intro n ty hn; omega
  | succ N ih =>
    intro n ty hn hty
    obtain ⟨x, hx⟩ := h.type hty
    have hfind := h.find hx
    cases x with
    | basic z =>
      have htok := h.basic hx
      refine ⟨_, .token htok, fun fuel _ s => ⟨ops.enter ty n s, ?_, ?_, hs.tokens ty n s htok⟩⟩
      · simp [Wbnf.visit, hfind, GoType.children]
      · simp only [Visitor.callUntil, Visitor.call, Visitor.seen]
        rcases ops.enter ty n s with ⟨s', _ | st⟩ <;> rfl
    | rule z cs =>
      have htok := h.rule hx
      have hne : cs ≠ [] := fun e => (h.sound _ hx).2 z (by rw [e])
      obtain ⟨ks, hk1, hk2, hk3⟩ := h.steps hx n (ord cs) fun m hm => (ho cs).1.mem_iff.1 hm
      have hfunc := h.func (ord := ord) hx
      have hvisit : ∀ fuel s, Wbnf.visit camel ord tm ops fuel ty n s = visitNode camel ord tm ops fuel ty n s := by
        intro fuel s
        simp [Wbnf.visit, hfind, GoType.children, hne]
      have hnode : ∀ fuel s, visitNode camel ord tm ops (fuel + 1) ty n s =
          let rest := visitRest ops (fun k s => Wbnf.visit camel ord tm ops fuel k.2.1 k.2.2 s) ty n ks
          match ops.enter ty n s with
          | (s, some st) =>
            if st.exitNode then some (s, none)
            else if st.abort then some (s, some st)
            else rest s
          | (s, none) => rest s := by
        intro fuel s
        have hcongr : visitRest ops (fun k s => if k.1 then visitNode camel ord tm ops fuel k.2.1 k.2.2 s else some (ops.enter k.2.1 k.2.2 s)) ty n ks =
            visitRest ops (fun k s => Wbnf.visit camel ord tm ops fuel k.2.1 k.2.2 s) ty n ks := by
          funext s
          refine visitRest_congr ks s fun k hk s => ?_
          obtain ⟨m, hm, st, hst, hw, ht⟩ := hk3 k hk
          obtain ⟨y, hy, hyc⟩ := h.step hx ((ho cs).1.mem_iff.1 hm) hst
          simp only [hw, ht, Wbnf.visit, h.find hy]
          cases hw' : st.walker
          · have : y.children = [] := Classical.byContradiction fun e => by simp [hyc.2 e] at hw'
            simp [this]
          · simp [hyc.1 hw']
        rw [visitNode]
        simp only [hfunc, hk1, hcongr]
        rfl
      cases hsk : skip ty n with
      | true =>
        refine ⟨_, .skip htok hsk, fun fuel hf s => ?_⟩
        obtain ⟨fuel, rfl⟩ := Nat.exists_eq_succ_of_ne_zero (by omega : fuel ≠ 0)
        obtain ⟨st, h1, h2⟩ := hs.leave ty n s htok hsk
        rcases h4 : ops.enter ty n s with ⟨s', _ | st'⟩
        · simp [h4] at h1
        · simp only [h4, Option.some.injEq] at h1
          subst h1
          refine ⟨(s', none), ?_, ?_, by simp⟩
          · rw [hvisit, hnode]; simp [h4, h2]
          · simp [Visitor.callUntil, Visitor.call, h4, Visitor.seen, Stopper.stops, h2]
      | false =>
        have hall : ∀ k ∈ ks, ∃ cs, Tour (Accessible camel tm upper) (TokenType camel tm) skip k.2.1 k.2.2 cs ∧
            ∀ fuel, N ≤ fuel → Makes ops (Wbnf.visit camel ord tm ops fuel k.2.1 k.2.2) cs := by
          intro k hk
          refine ih k.2.2 k.2.1 ?_ ?_
          · have : k.2 ∈ ks.map Prod.snd := List.mem_map_of_mem hk
            rw [hk2] at this
            obtain ⟨d, _, hd⟩ := List.mem_flatMap.1 this
            have := size_returned hd
            omega
          · obtain ⟨m, hm, st, hst, _, h2⟩ := hk3 k hk
            rw [h2]
            obtain ⟨y, hy, _⟩ := h.step hx ((ho cs).1.mem_iff.1 hm) hst
            exact List.mem_map.2 ⟨_, hy, h.keyed.2 _ hy⟩
        obtain ⟨css, hc1, hc2⟩ : ∃ css, List.Forall₂ (fun (k : Bool × Str × Ast) cs => Tour (Accessible camel tm upper) (TokenType camel tm) skip k.2.1 k.2.2 cs) ks css ∧
            ∀ fuel, N ≤ fuel → List.Forall₂ (fun (k : Bool × Str × Ast) cs => Makes ops (Wbnf.visit camel ord tm ops fuel k.2.1 k.2.2) cs) ks css := by
          clear hk1 hk2 hk3 hnode
          induction ks with
          | nil => exact ⟨[], .nil, fun _ _ => .nil⟩
          | cons k ks ih' =>
            obtain ⟨css, h1, h2⟩ := ih' fun k' hk' => hall k' (by simp [hk'])
            obtain ⟨cs, h3, h4⟩ := hall k (by simp)
            exact ⟨cs :: css, .cons h3 h1, fun f hf => .cons (h4 f hf) (h2 f hf)⟩
        refine ⟨_, .node htok hsk ⟨_, h.accessors ho hx, rfl⟩ (ks := _) (cs := css.flatten) ?_, fun fuel hf s => ?_⟩
        · rw [← hk2]
          refine Tours.of_list ?_
          clear hk1 hk2 hk3 hnode hc2 hall
          induction hc1 with
          | nil => exact .nil
          | cons a b ih' => exact .cons a ih'
        · obtain ⟨fuel, rfl⟩ := Nat.exists_eq_succ_of_ne_zero (by omega : fuel ≠ 0)
          have hrest := Makes.rest (ty := ty) (n := n) hs (hc2 fuel (by omega))
          rw [hvisit, hnode]
          simp only [Visitor.callUntil, Visitor.call]
          rcases h4 : ops.enter ty n s with ⟨s', _ | st⟩
          · exact hrest s'
          · have h5 := hs.stay ty n s htok hsk st (by simp [h4])
            simp only [h5, Stopper.stops]
            by_cases ha : st.abort
            · simp [ha, h5, Visitor.seen, Stopper.stops]
            · simpa [ha] using hrest s'

end

end Wbnf
