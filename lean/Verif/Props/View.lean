import Verif.Props.Dict

/-!
# C43: the attribute-style view of a dictionary
-/

namespace LRVB

open Param

/-- **C43** (reading) Reading a key returns what `get()` of the parameter pushed under it returns;
any other key raises `KeyError`. -/
theorem C43_read {eigh : Eigh} (d : Param) (_ : Built eigh d) (hd : d.IsDict) (key : String) :
    (key ∈ d.keys → ∃ p, (key, p) ∈ d.items ∧ d.viewGet key = .ok p.get) ∧
    (key ∉ d.keys → d.viewGet key = .error .keyError) := by
  cases d with
  | leaf l => exact hd.elim
  | dict h es =>
    simp only [keys, items, viewGet]
    constructor
    · intro hk
      obtain ⟨q, hq⟩ := Entries.mem_keys_find hk
      exact ⟨q, Entries.find_mem hq, by rw [hq]⟩
    · intro hk
      cases hq : es.find key with
      | none => rfl
      | some q => exact absurd (Entries.find_mem_keys hq) hk

/-- **C43** (writing) Writing a key calls `set` of the parameter under it; all other entries stay
what they were; when `set` rejects the value its exception is raised and nothing is changed; an
unknown key raises `KeyError` and nothing is changed. -/
theorem C43_write (d : Param) (hd : d.IsDict) (key : String) (v : Arr) :
    (∀ l l', d.find key = some (.leaf l) → l.set v = .ok l' →
      ∃ d', d.viewSet key v = (d', none) ∧ d'.find key = some (.leaf l') ∧
        d'.viewGet key = .ok (.arr v) ∧ ∀ k', k' ≠ key → d'.find k' = d.find k') ∧
    (∀ l e, d.find key = some (.leaf l) → l.set v = .error e → d.viewSet key v = (d, some e)) ∧
    (∀ p, d.find key = some p → p.IsDict → d.viewSet key v = (d, some .attributeError)) ∧
    (d.find key = none → d.viewSet key v = (d, some .keyError)) := by
  cases d with
  | leaf l => exact hd.elim
  | dict h es =>
    simp only [find, viewSet]
    refine ⟨?_, ?_, ?_, ?_⟩
    · intro l l' hl hs
      have e := onEntry_find_eq (f := fun p => p.set v) hl
      simp only [Param.set, hs] at e
      refine ⟨_, Prod.ext rfl e.2, e.1, ?_, fun k' hk => onEntry_find_ne hk es⟩
      simp only [viewGet, Param.set]
      rw [e.1, Leaf.set_eq hs]
      rfl
    · intro l er hl hs
      have e := onEntry_find_eq (f := fun p => p.set v) hl
      have e' := onEntry_same (f := fun p => p.set v) hl (by simp only [Param.set, hs])
      rw [e', e.2]
      simp only [Param.set, hs]
    · intro p hp hpd
      cases p with
      | leaf l => exact hpd.elim
      | dict h' es' =>
        have e := onEntry_find_eq (f := fun p => p.set v) hp
        have e' := onEntry_same (f := fun p => p.set v) hp rfl
        rw [e', e.2]
        rfl
    · intro hn
      rw [onEntry_none hn]

/-- The value of the last write to `key` that is accepted. -/
noncomputable def lastAccepted (d : Param) (key : String) (ws : List (String × Arr)) : Option Arr :=
  open Classical in
  ((ws.filter fun w => w.1 = key ∧ (d.viewSet w.1 w.2).2 = none).getLast?).map Prod.snd

/-- Two dictionaries that accept the same writes and whose entries differ in values only. -/
theorem viewSet_accepts {d : Param} (hd : d.IsDict) (key : String) (v : Arr) (k' : String) (w : Arr) :
    (((d.viewSet key v).1).viewSet k' w).2 = none ↔ (d.viewSet k' w).2 = none := by
  cases d with
  | leaf l => exact hd.elim
  | dict h es =>
    simp only [viewSet]
    by_cases hk : k' = key
    · subst hk
      cases hq : es.find k' with
      | none => rw [onEntry_none hq]
      | some q =>
        have e := onEntry_find_eq (f := fun p => p.set v) hq
        rw [(onEntry_find_eq (f := fun p => p.set w) e.1).2,
          (onEntry_find_eq (f := fun p => p.set w) hq).2]
        cases q with
        | dict h' es' => rfl
        | leaf l =>
          simp only [Param.set]
          cases hs : l.set v with
          | error er => rfl
          | ok l' =>
            have hl' := Leaf.set_eq hs
            simp only [Param.set]
            have : ∀ u, (∃ a, l'.set u = .ok a) ↔ ∃ a, l.set u = .ok a := by
              intro u
              rw [hl']
              exact Leaf.set_ok_iff_of_kind rfl u
            have hw := this w
            clear this hl' hs e
            cases h1 : l'.set w <;> cases h2 : l.set w <;> simp [h1, h2] at hw ⊢
    · cases hq : es.find k' with
      | none =>
        have e : (onEntry (fun p => p.set v) key es).1.find k' = none := by
          rw [onEntry_find_ne hk]; exact hq
        rw [onEntry_none e, onEntry_none hq]
      | some q =>
        have e : (onEntry (fun p => p.set v) key es).1.find k' = some q := by
          rw [onEntry_find_ne hk]; exact hq
        rw [(onEntry_find_eq e).2, (onEntry_find_eq hq).2]

/-- **C43** (histories) After any sequence of writes, accepted or not, reading a key gives the value
of the last accepted write to that key, and what the dictionary held before if there was none. -/
theorem C43_history (d : Param) (hd : d.IsDict) (ws : List (String × Arr)) (key : String) :
    (d.writes ws).viewGet key =
      match lastAccepted d key ws with
      | some v => .ok (.arr v)
      | none => d.viewGet key := by
  induction ws generalizing d with
  | nil => rfl
  | cons w ws ih =>
    obtain ⟨k, v⟩ := w
    have hd' : (d.viewSet k v).1.IsDict := by
      cases d with
      | leaf l => exact hd.elim
      | dict h es => trivial
    simp only [writes]
    rw [ih _ hd']
    have hl : lastAccepted (d.viewSet k v).1 key ws = lastAccepted d key ws := by
      unfold lastAccepted
      congr 2
      apply List.filter_congr
      intro w _
      simp only [viewSet_accepts hd]
    rw [hl]
    unfold lastAccepted
    by_cases hkey : k = key ∧ (d.viewSet k v).2 = none
    · obtain ⟨rfl, hacc⟩ := hkey
      simp only [List.filter_cons]
      rw [if_pos (by simpa using hacc), List.getLast?_cons]
      cases hf : (List.filter (fun w => decide (w.1 = k ∧ (d.viewSet w.1 w.2).2 = none)) ws).getLast? with
      | some a => simp
      | none =>
        simp only [Option.map_none, Option.getD_none, Option.map_some]
        cases d with
        | leaf l => exact hd.elim
        | dict h es =>
          cases hq : es.find k with
          | none => simp [viewSet, onEntry_none hq] at hacc
          | some q =>
            cases q with
            | dict h' es' =>
              simp only [viewSet] at hacc
              rw [(onEntry_find_eq (f := fun p => p.set v) hq).2] at hacc
              simp [Param.set] at hacc
            | leaf l =>
              cases hs : l.set v with
              | error e =>
                simp only [viewSet] at hacc
                rw [(onEntry_find_eq (f := fun p => p.set v) hq).2] at hacc
                simp [Param.set, hs] at hacc
              | ok l' =>
                obtain ⟨d', h1, _, h3, _⟩ := (C43_write (.dict h es) trivial k v).1 l l' hq hs
                rw [h1]
                exact h3
    · simp only [List.filter_cons]
      rw [if_neg (by simpa using hkey)]
      cases hf : (List.filter (fun w => decide (w.1 = key ∧ (d.viewSet w.1 w.2).2 = none)) ws).getLast? with
      | some a => simp
      | none =>
        simp only [Option.map_none]
        cases d with
        | leaf l => exact hd.elim
        | dict h es =>
          by_cases hk : key = k
          · subst hk
            cases hq : es.find key with
            | none => simp [viewSet, onEntry_none hq]
            | some q =>
              cases q with
              | dict h' es' =>
                rw [(C43_write (.dict h es) trivial key v).2.2.1 _ hq trivial]
              | leaf l =>
                cases hs : l.set v with
                | error e =>
                  rw [(C43_write (.dict h es) trivial key v).2.1 l e hq hs]
                | ok l' =>
                  obtain ⟨d', h1, _⟩ := (C43_write (.dict h es) trivial key v).1 l l' hq hs
                  exact absurd ⟨rfl, by rw [h1]⟩ hkey
          · simp only [viewSet, viewGet]
            rw [onEntry_find_ne hk]

/-- The example dictionary has the keys `a` (a scalar) and `s` (a dictionary), and a write to `a` is
accepted. -/
example : Built (fun _ _ => (0, 1)) exDict ∧ exDict.IsDict ∧ exDict.keys = ["a", "s"] ∧
    (∃ l', exDict.find "a" = some (.leaf exScalar) ∧ exScalar.set (Arr.scalar 7) = .ok l') ∧
    exDict.find "zzz" = none ∧ ∃ p, exDict.find "s" = some p ∧ p.IsDict := by
  refine ⟨exDict_built _, trivial, ?_, ⟨_, ?_, rfl⟩, ?_, exSub, ?_, trivial⟩ <;>
  simp [exDict, exSub, keys, items, emptyDict, push, find, Entries.assign, Entries.find,
      Entries.toList, Param.name, exScalar, exVector]

end LRVB
