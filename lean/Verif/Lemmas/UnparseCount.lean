import Verif.Lemmas.UnparseTo

/-! The number `Unparse` returns is not more than what it wrote. -/

namespace Wbnf

variable {w : Writer}

/-- From texts of so many bytes on, no more is counted than is written. -/
def Counts (r : List Str → Except Stop Wrote) : Prop := ∀ calls o, r calls = .ok o → o.n + calls.flatten.length ≤ o.calls.flatten.length

/-- The same in a loop. -/
def CountsOn (r : List Str → Nat → Except Stop Wrote) : Prop :=
  ∀ calls so o m, r calls so = .ok o → so + m ≤ calls.flatten.length → o.n + m ≤ o.calls.flatten.length

theorem CountsOn.counts {r : List Str → Nat → Except Stop Wrote} (h : CountsOn r) : Counts (fun c => r c 0) :=
  fun calls o e => h calls 0 o _ e (by omega)

theorem countsOn_nil : CountsOn (fun c so => .ok ⟨c, so, false⟩) := by
  intro _ _ _ _ e h
  cases e
  exact h

theorem Counts.andThen {a : List Str → Except Stop Wrote} {b : List Str → Nat → Except Stop Wrote} (ha : Counts a) (hb : CountsOn b) :
    CountsOn (fun c so => (a c).bind fun o => o.andThen so b) := by
  intro calls so o m e h
  obtain ⟨o', h1, e⟩ := bind_done e
  have := ha _ _ h1
  simp only [Wrote.andThen] at e
  split at e
  · cases e
    dsimp only
    omega
  · exact hb _ _ _ _ e (by omega)

theorem counts_write (hw : ∀ before y, (w before y).1 ≤ y.length) (e : Tree) (p : Str → Str) :
    Counts (fun c => (leafText e).bind fun x => .ok (w.write (p x) c)) := by
  intro calls o h
  obtain ⟨x, _, h⟩ := bind_done h
  cases h
  have := hw calls (p x)
  simp [Writer.write]
  omega

theorem counts_panic {s : Stop} : Counts (fun _ => .error s) := fun _ _ h => by cases h

theorem countsOn_seq {f : Term → Tree → List Str → Except Stop Wrote} (h : ∀ t v, Counts (f t v)) : ∀ (ts : List Term) (vs : List Tree),
    CountsOn (unparseSeqTo f ts vs)
  | [], _ => countsOn_nil
  | _ :: _, [] => fun _ _ _ _ e => by cases e
  | t :: ts, v :: vs => (h t v).andThen (countsOn_seq h ts vs)

theorem countsOn_all {f : Tree → List Str → Except Stop Wrote} (h : ∀ v, Counts (f v)) : ∀ (vs : List Tree), CountsOn (unparseAllTo f vs)
  | [] => countsOn_nil
  | v :: vs => (h v).andThen (countsOn_all h vs)

theorem countsOn_delim {f : Term → Tree → List Str → Except Stop Wrote} {sep : Term} (h : ∀ t v, Counts (f t v)) :
    ∀ (vs : List Tree) (side other : Term) (b : Bool), CountsOn (unparseDelimTo f sep side other b vs)
  | [], _, _, b => by
    intro calls so o m e
    rw [unparseDelimTo] at e
    exact countsOn_nil calls so o m e
  | v :: vs, side, other, true => (h sep v).andThen (countsOn_delim h vs side other false)
  | v :: vs, side, other, false => (h side v).andThen (countsOn_delim h vs other side true)

theorem unparseTo_counts (hw : ∀ before y, (w before y).1 ≤ y.length) {g : Grammar} : ∀ (n : Nat) (t : Term) (e : Tree), Counts (unparseTo w n g t e)
  | 0, _, _ => counts_panic
  | n + 1, t, e => by
    have ih := unparseTo_counts hw (g := g) n
    cases t with
    | s l => exact counts_write hw e id
    | re l => exact counts_write hw e id
    | ref i d => exact counts_write hw e (str "\\" ++ ·)
    | seq ts =>
      cases e with
      | node tag ex cs => exact (countsOn_seq ih ts cs).counts
      | _ => exact counts_panic
    | oneof ts =>
      intro calls o h
      simp only [unparseTo] at h
      split at h
      · split at h
        · exact ih _ _ _ _ h
        · cases h
      · cases h
    | delim t' sep a cs ce =>
      intro calls o h
      simp only [unparseTo] at h
      split at h
      · split at h
        · exact (countsOn_delim ih _ _ _ _).counts _ _ h
        · split at h
          · exact (countsOn_delim ih _ _ _ _).counts _ _ h
          · exact (countsOn_delim ih _ _ _ _).counts _ _ h
      · cases h
    | look t' =>
      cases e with
      | node tag ex cs => exact (countsOn_all (ih t') cs).counts
      | _ => exact counts_panic
    | quant t' lo hi =>
      cases e with
      | node tag ex cs => exact (countsOn_all (ih t') cs).counts
      | _ => exact counts_panic
    | rule r =>
      intro calls o h
      simp only [unparseTo] at h
      split at h
      · exact ih _ _ _ _ h
      · cases h
    | named m t' => exact ((ih t' e).andThen countsOn_nil).counts
    | cut t' => exact ih t' e
    | stack => exact counts_panic
    | scope => exact counts_panic
    | ext => exact counts_panic

end Wbnf
