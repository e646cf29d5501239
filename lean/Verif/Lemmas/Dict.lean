import Verif.Spec.Dict
import Verif.Lemmas.Reach

/-! Structure of parameter dictionaries. -/

namespace LRVB

/-! ### Erasing values -/

mutual
/-- The structure of an object without its values and own names. -/
def Param.erase : Param → Param
  | .leaf l => .leaf ⟨"", l.kind, ⟨[], []⟩, false⟩
  | .dict h es => .dict { h with name := "" } es.erase
/-- The structure of the entries. -/
def Entries.erase : Entries → Entries
  | .nil => .nil
  | .cons k p rest => .cons k p.erase rest.erase
end

theorem Param.erase_leaf (l l' : Leaf) (h : l'.kind = l.kind) :
    (Param.leaf l').erase = (Param.leaf l).erase := by
  simp [Param.erase, h]

@[simp] theorem Param.freeSize_erase (p : Param) : p.erase.freeSize = p.freeSize := by
  cases p <;> rfl

@[simp] theorem Param.vecSize_erase (p : Param) : p.erase.vecSize = p.vecSize := by
  cases p <;> rfl

theorem Param.freeSize_congr {p q : Param} (h : p.erase = q.erase) : p.freeSize = q.freeSize := by
  rw [← p.freeSize_erase, h, q.freeSize_erase]

theorem Param.vecSize_congr {p q : Param} (h : p.erase = q.erase) : p.vecSize = q.vecSize := by
  rw [← p.vecSize_erase, h, q.vecSize_erase]

namespace Param

mutual
theorem setFree_erase : ∀ (p : Param) (x : List ℝ), (p.setFree x).1.erase = p.erase
  | leaf l, x => by
    unfold setFree
    split
    · next h => exact erase_leaf _ _ (Leaf.setFree_kind h).1
    · rfl
  | dict h es, x => by
    unfold setFree
    split_ifs
    · rfl
    · simp only [erase]; rw [setFreeEntries_erase]
theorem setFreeEntries_erase : ∀ (es : Entries) (x : List ℝ) (off : ℕ),
    (setFreeEntries es x off).1.erase = es.erase
  | .nil, x, off => by rw [setFreeEntries]
  | .cons k p rest, x, off => by
    rw [setFreeEntries]
    have h1 := setFree_erase p (Leaf.slice x off p.freeSize)
    have h2 := setFreeEntries_erase rest x (off + p.freeSize)
    simp only
    split <;> simp [Entries.erase, h1, h2]
end

mutual
theorem setVector_erase : ∀ (p : Param) (x : List ℝ), (p.setVector x).1.erase = p.erase
  | leaf l, x => by
    unfold setVector
    split
    · next h => exact erase_leaf _ _ (Leaf.setVector_kind h).1
    · rfl
  | dict h es, x => by
    unfold setVector
    split_ifs
    · rfl
    · simp only [erase]; rw [setVectorEntries_erase]
theorem setVectorEntries_erase : ∀ (es : Entries) (x : List ℝ) (off : ℕ),
    (setVectorEntries es x off).1.erase = es.erase
  | .nil, x, off => by rw [setVectorEntries]
  | .cons k p rest, x, off => by
    rw [setVectorEntries]
    have h1 := setVector_erase p (Leaf.slice x off p.vecSize)
    have h2 := setVectorEntries_erase rest x (off + p.vecSize)
    simp only
    split <;> simp [Entries.erase, h1, h2]
end

theorem freeToVector_erase (p : Param) (x : List ℝ) : (p.freeToVector x).1.erase = p.erase := by
  cases p with
  | leaf l =>
    simp only [freeToVector]
    split
    · rfl
    · next l' h =>
      split
      · next r hr => exact erase_leaf _ _ (Leaf.setFree_kind (Leaf.freeToVector_setFree hr)).1
      · exact erase_leaf _ _ (Leaf.setFree_kind h).1
  | dict h es =>
    unfold freeToVector
    simp only
    split <;> exact setFree_erase _ _

theorem jac_leaf_kind {l : Leaf} {x : List ℝ} {r : Leaf × Coo} (h : l.jac x = .ok r) :
    r.1.kind = l.kind := by
  rcases Leaf.jac_leaf h with h | ⟨l', h, h'⟩
  · rw [h]
  · rw [h']; exact (Leaf.setFree_kind h).1

theorem hess_leaf_kind {l : Leaf} {x : List ℝ} {r : Leaf × List Coo} (h : l.hess x = .ok r) :
    r.1.kind = l.kind := by
  rcases Leaf.hess_leaf h with h | ⟨l', h, h'⟩
  · rw [h]
  · rw [h']; exact (Leaf.setFree_kind h).1

mutual
theorem jac_erase : ∀ (p : Param) (x : List ℝ), (p.jac x).1.erase = p.erase
  | leaf l, x => by
    unfold jac
    split
    · next h => exact erase_leaf _ _ (jac_leaf_kind h)
    · rfl
  | dict h es, x => by
    unfold jac
    simp only [erase]; rw [jacEntries_erase]
theorem jacEntries_erase : ∀ (es : Entries) (x : List ℝ) (off : ℕ),
    (jacEntries es x off).1.erase = es.erase
  | .nil, x, off => by rw [jacEntries]
  | .cons k p rest, x, off => by
    rw [jacEntries]
    have h1 := jac_erase p (Leaf.slice x off p.freeSize)
    have h2 := jacEntries_erase rest x (off + p.freeSize)
    simp only
    split <;> simp [Entries.erase, h1, h2]
end

mutual
theorem hess_erase : ∀ (p : Param) (x : List ℝ), (p.hess x).1.erase = p.erase
  | leaf l, x => by
    unfold hess
    split
    · next h => exact erase_leaf _ _ (hess_leaf_kind h)
    · rfl
  | dict h es, x => by
    unfold hess
    simp only [erase]; rw [hessEntries_erase]
theorem hessEntries_erase (full : ℕ) : ∀ (es : Entries) (x : List ℝ) (off : ℕ),
    (hessEntries full es x off).1.erase = es.erase
  | .nil, x, off => by rw [hessEntries]
  | .cons k p rest, x, off => by
    rw [hessEntries]
    have h1 := hess_erase p (Leaf.slice x off p.freeSize)
    have h2 := hessEntries_erase full rest x (off + p.freeSize)
    simp only
    split <;> simp [Entries.erase, h1, h2]
end

theorem convertHessian_erase (p : Param) (x g : List ℝ) (H : Arr) :
    (p.convertHessian x g H).1.erase = p.erase := by
  unfold convertHessian
  simp only
  split
  · exact setFree_erase _ _
  · split
    · rw [jac_erase, setFree_erase]
    · split
      · rw [setFree_erase, jac_erase, setFree_erase]
      · rw [hess_erase, setFree_erase, jac_erase, setFree_erase]

theorem set_erase (p : Param) (v : Arr) : (p.set v).1.erase = p.erase := by
  cases p with
  | leaf l =>
    simp only [Param.set]
    split
    · next h => rw [Leaf.set_eq h]; rfl
    · rfl
  | dict h es => rfl

theorem onEntry_erase {f : Param → Param × Option PyErr} (hf : ∀ q, (f q).1.erase = q.erase)
    (key : String) : ∀ es, (onEntry f key es).1.erase = es.erase
  | .nil => rfl
  | .cons k p rest => by
    unfold onEntry
    split_ifs
    · simp [Entries.erase, hf]
    · simp [Entries.erase, onEntry_erase hf key rest]

theorem step_erase (op : ParamOp) : ∀ (p : Param), (p.step op).1.erase = p.erase := by
  induction op with
  | set v => exact fun p => set_erase p v
  | setFree x => exact fun p => setFree_erase p x
  | setVector x => exact fun p => setVector_erase p x
  | freeToVector x => exact fun p => freeToVector_erase p x
  | freeToVectorJac x => exact fun p => jac_erase p x
  | freeToVectorHess x => exact fun p => hess_erase p x
  | convertHessian x g H => exact fun p => convertHessian_erase p x g H
  | setName n => intro p; cases p <;> rfl
  | viewSet key v =>
    intro p
    cases p with
    | leaf l => rfl
    | dict h es =>
      simp only [step, viewSet, erase]
      rw [onEntry_erase (fun q => set_erase q v)]
  | child key op ih =>
    intro p
    cases p with
    | leaf l => rfl
    | dict h es =>
      simp only [step, erase]
      rw [onEntry_erase ih]

end Param

/-! ### Well-formed structure -/

/-- Sum of the free sizes. -/
def Entries.fsum : Entries → ℕ
  | .nil => 0
  | .cons _ p rest => p.freeSize + rest.fsum

/-- Sum of the vector sizes. -/
def Entries.vsum : Entries → ℕ
  | .nil => 0
  | .cons _ p rest => p.vecSize + rest.vsum

/-- Consecutive free ranges from `off`. -/
def Entries.franges : Entries → ℕ → List (String × IdxRange)
  | .nil, _ => []
  | .cons k p rest, off => (k, ⟨off, off + p.freeSize⟩) :: rest.franges (off + p.freeSize)

/-- Consecutive vector ranges from `off`. -/
def Entries.vranges : Entries → ℕ → List (String × IdxRange)
  | .nil, _ => []
  | .cons k p rest, off => (k, ⟨off, off + p.vecSize⟩) :: rest.vranges (off + p.vecSize)

/-- The keys. -/
def Entries.keys (es : Entries) : List String := es.toList.map Prod.fst

mutual
/-- The bookkeeping of an object and of everything in it is right. -/
def Param.WF : Param → Prop
  | .leaf l => l.kind.Legal
  | .dict h es => es.WF ∧ es.keys.Nodup ∧ h.fs = es.fsum ∧ h.vs = es.vsum ∧
      h.freeIdx = es.franges 0 ∧ h.vecIdx = es.vranges 0
/-- All entries are well formed and not empty dictionaries. -/
def Entries.WF : Entries → Prop
  | .nil => True
  | .cons _ p rest => p.WF ∧ p.HasParams ∧ rest.WF
end

theorem Param.hasParams_erase (p : Param) : p.erase.HasParams ↔ p.HasParams := by
  cases p with
  | leaf l => rfl
  | dict h es => cases es <;> simp [Param.erase, Entries.erase, HasParams]

namespace Entries

theorem fsum_erase : ∀ es : Entries, es.erase.fsum = es.fsum
  | .nil => rfl
  | .cons k p rest => by simp [erase, fsum, fsum_erase rest]

theorem vsum_erase : ∀ es : Entries, es.erase.vsum = es.vsum
  | .nil => rfl
  | .cons k p rest => by simp [erase, vsum, vsum_erase rest]

theorem franges_erase : ∀ (es : Entries) (off : ℕ), es.erase.franges off = es.franges off
  | .nil, _ => rfl
  | .cons k p rest, off => by simp [erase, franges, franges_erase rest]

theorem vranges_erase : ∀ (es : Entries) (off : ℕ), es.erase.vranges off = es.vranges off
  | .nil, _ => rfl
  | .cons k p rest, off => by simp [erase, vranges, vranges_erase rest]

theorem keys_erase : ∀ es : Entries, es.erase.keys = es.keys
  | .nil => rfl
  | .cons k p rest => by
    have := keys_erase rest
    simp only [keys] at this
    simp [erase, keys, toList, this]

theorem keys_nil : Entries.nil.keys = [] := rfl

theorem keys_cons (k : String) (p : Param) (rest : Entries) :
    (Entries.cons k p rest).keys = k :: rest.keys := rfl

end Entries

mutual
theorem Param.wf_erase : ∀ p : Param, p.erase.WF ↔ p.WF
  | .leaf l => Iff.rfl
  | .dict h es => by
    simp only [Param.erase, Param.WF]
    rw [Entries.wf_erase es, es.keys_erase, es.fsum_erase, es.vsum_erase, es.franges_erase,
      es.vranges_erase]
theorem Entries.wf_erase : ∀ es : Entries, es.erase.WF ↔ es.WF
  | .nil => Iff.rfl
  | .cons k p rest => by
    simp only [Entries.erase, Entries.WF]
    rw [Param.wf_erase p, p.hasParams_erase, Entries.wf_erase rest]
end

theorem Param.wf_congr {p q : Param} (h : p.erase = q.erase) : p.WF ↔ q.WF := by
  rw [← p.wf_erase, h, q.wf_erase]

theorem Param.hasParams_congr {p q : Param} (h : p.erase = q.erase) :
    p.HasParams ↔ q.HasParams := by
  rw [← p.hasParams_erase, h, q.hasParams_erase]

/-! ### Pushing -/

theorem assign_new {α : Type} {key : String} {v : α} {l : List (String × α)}
    (h : key ∉ l.map Prod.fst) : assign key v l = l ++ [(key, v)] := by
  induction l with
  | nil => rfl
  | cons a t ih =>
    obtain ⟨k, w⟩ := a
    simp only [List.map_cons, List.mem_cons, not_or] at h
    simp only [assign]
    rw [if_neg (fun hc => h.1 hc.symm), ih h.2]
    rfl

namespace Entries

/-- Add an entry at the end. -/
def snoc : Entries → String → Param → Entries
  | .nil, key, p => .cons key p .nil
  | .cons k q rest, key, p => .cons k q (rest.snoc key p)

theorem assign_new {key : String} {p : Param} : ∀ {es : Entries}, key ∉ es.keys →
    es.assign key p = es.snoc key p
  | .nil, _ => rfl
  | .cons k q rest, h => by
    rw [keys_cons, List.mem_cons, not_or] at h
    simp only [assign, snoc]
    rw [if_neg (fun hc => h.1 hc.symm), assign_new h.2]

theorem keys_snoc (key : String) (p : Param) : ∀ es : Entries,
    (es.snoc key p).keys = es.keys ++ [key]
  | .nil => rfl
  | .cons k q rest => by rw [snoc, keys_cons, keys_cons, keys_snoc key p rest]; rfl

theorem fsum_snoc (key : String) (p : Param) : ∀ es : Entries,
    (es.snoc key p).fsum = es.fsum + p.freeSize
  | .nil => by simp [snoc, fsum]
  | .cons k q rest => by simp [snoc, fsum, fsum_snoc key p rest]; ring

theorem vsum_snoc (key : String) (p : Param) : ∀ es : Entries,
    (es.snoc key p).vsum = es.vsum + p.vecSize
  | .nil => by simp [snoc, vsum]
  | .cons k q rest => by simp [snoc, vsum, vsum_snoc key p rest]; ring

theorem franges_snoc (key : String) (p : Param) : ∀ (es : Entries) (off : ℕ),
    (es.snoc key p).franges off =
      es.franges off ++ [(key, ⟨off + es.fsum, off + es.fsum + p.freeSize⟩)]
  | .nil, off => by simp [snoc, franges, fsum]
  | .cons k q rest, off => by
    simp [snoc, franges, fsum, franges_snoc key p rest, Nat.add_assoc]

theorem vranges_snoc (key : String) (p : Param) : ∀ (es : Entries) (off : ℕ),
    (es.snoc key p).vranges off =
      es.vranges off ++ [(key, ⟨off + es.vsum, off + es.vsum + p.vecSize⟩)]
  | .nil, off => by simp [snoc, vranges, vsum]
  | .cons k q rest, off => by
    simp [snoc, vranges, vsum, vranges_snoc key p rest, Nat.add_assoc]

theorem wf_snoc (key : String) (p : Param) (hp : p.WF) (hp' : p.HasParams) : ∀ es : Entries,
    es.WF → (es.snoc key p).WF
  | .nil, _ => ⟨hp, hp', trivial⟩
  | .cons _ _ rest, h => ⟨h.1, h.2.1, wf_snoc key p hp hp' rest h.2.2⟩

theorem franges_keys : ∀ (es : Entries) (off : ℕ), (es.franges off).map Prod.fst = es.keys
  | .nil, _ => rfl
  | .cons k p rest, off => by simp [franges, keys_cons, franges_keys rest]

theorem vranges_keys : ∀ (es : Entries) (off : ℕ), (es.vranges off).map Prod.fst = es.keys
  | .nil, _ => rfl
  | .cons k p rest, off => by simp [vranges, keys_cons, vranges_keys rest]

end Entries

theorem Param.push_wf {d p : Param} (hd : d.WF) (hp : p.WF) (hp' : p.HasParams)
    (hn : p.name ∉ d.keys) : (d.push p).WF := by
  cases d with
  | leaf l => exact hd
  | dict h es =>
    obtain ⟨h1, h2, h3, h4, h5, h6⟩ := hd
    have hn : p.name ∉ es.keys := hn
    simp only [push, WF]
    rw [Entries.assign_new hn]
    refine ⟨Entries.wf_snoc _ _ hp hp' _ h1, ?_, ?_, ?_, ?_, ?_⟩
    · rw [Entries.keys_snoc]
      exact List.Nodup.append h2 (by simp) (by simpa using hn)
    · rw [Entries.fsum_snoc, h3]
    · rw [Entries.vsum_snoc, h4]
    · rw [Entries.franges_snoc, h5, assign_new (by rw [Entries.franges_keys]; exact hn), h3]; simp
    · rw [Entries.vranges_snoc, h6, assign_new (by rw [Entries.vranges_keys]; exact hn), h4]; simp

/-- Every object a program builds is well formed. -/
theorem Built.wf {eigh : Eigh} (he : EighContract eigh) {p : Param} (h : Built eigh p) : p.WF := by
  induction h with
  | leaf h1 h2 => exact reachable_legal he h1 h2
  | empty name => exact ⟨trivial, List.nodup_nil, rfl, rfl, rfl, rfl⟩
  | push _ _ _ h1 h2 ih1 ih2 => exact Param.push_wf ih1 ih2 h1 h2
  | step op _ ih => exact (Param.wf_congr (Param.step_erase op _)).mpr ih

end LRVB
