import Verif.Proofs.IfaceTrip
import Verif.Props.MarshalMap
import Verif.Props.Dict

/-!
# `Interface()` against `Marshal`: C88

`marshalU sort ord pick oe h n u`: `Marshal(u)` for `oe = true`, `MarshalAll(u)` for `oe = false`.  `u` is the Go value that
`Interface()` returned, with the entries of its maps listed in any order (`v.interface.go.Same u`).
-/

namespace Jsonutils.Props

variable {ord : SMap Bytes → List (Bytes × Bytes)} {pick : List Nat → Nat} {sort : List (MapKey × GV) → List (MapKey × GV)} {h : List GU}

/-- **C88, MarshalAll.** `MarshalAll(v.Interface())` always returns, and gives `v` back but for what a Go value cannot hold. -/
theorem C88_marshal_all (hs : GoSort sort) (v : J) (hv : v.WF) {u : GU} (hu : v.interface.go.Same u) (n : Nat) :
    marshalU sort ord pick false h n u = some v.renewed := marshal_go hs hv hu n

/-- **C88, Marshal.** `Marshal(v.Interface())` gives the same without nulls. -/
theorem C88_marshal (hs : GoSort sort) (v : J) (hv : v.WF) {u : GU} (hu : v.interface.go.Same u) (n : Nat) :
    marshalU sort ord pick true h n u = some v.renewed.noNulls := marshal_go hs hv hu n

mutual
theorem renewed_interface : ∀ v : J, v.renewed.interface = v.interface
  | .arr xs => by simp only [J.renewed, J.interface, reneweds_interface xs]
  | .dict _ kvs => by simp only [J.renewed, J.interface, renewedf_interface kvs]
  | .null => rfl
  | .bool _ => rfl
  | .int _ => rfl
  | .float _ _ => rfl
  | .str _ => rfl
  | .ptr _ => rfl
theorem reneweds_interface : ∀ xs : List J, J.interfaces (J.reneweds xs) = J.interfaces xs
  | [] => rfl
  | x :: xs => by simp only [J.reneweds, J.interfaces, renewed_interface x, reneweds_interface xs]
theorem renewedf_interface : ∀ xs : List (Bytes × J), J.interfacef (J.renewedf xs) = J.interfacef xs
  | [] => rfl
  | (k, x) :: xs => by simp only [J.renewedf, J.interfacef, renewed_interface x, renewedf_interface xs]
end

/-- The document of a Go value. -/
private def doc : Iface → J
  | .nil => .null
  | .bool b => .bool b
  | .int n => .int n
  | .float x => .float x 64
  | .str s => .str s
  | .slice xs => .arr (docs xs)
  | .map kvs => .dict 0 (docf kvs)
where
  docs : List Iface → List J
    | [] => []
    | x :: xs => doc x :: docs xs
  docf : List (Bytes × Iface) → List (Bytes × J)
    | [] => []
    | (k, x) :: xs => (k, doc x) :: docf xs

private theorem docf_keys : ∀ kvs, (doc.docf kvs).map (·.1) = kvs.map (·.1)
  | [] => rfl
  | (k, x) :: xs => by simp [doc.docf, docf_keys xs]

mutual
private theorem doc_ok : ∀ i : Iface, i.Possible → (doc i).WF ∧ (doc i).interface = i
  | .nil, _ => ⟨trivial, rfl⟩
  | .bool _, _ => ⟨trivial, rfl⟩
  | .int _, h => ⟨h, rfl⟩
  | .float _, h => ⟨h, rfl⟩
  | .str _, _ => ⟨trivial, rfl⟩
  | .slice xs, h => by
    obtain ⟨h1, h2⟩ := docs_ok xs h
    exact ⟨by rw [doc]; exact h1, by simp only [doc, J.interface, h2]⟩
  | .map kvs, h => by
    obtain ⟨h1, h2⟩ := docf_ok kvs h.2
    exact ⟨by rw [doc]; exact ⟨sorted_by_keys (docf_keys kvs) h.1, h1⟩, by simp only [doc, J.interface, h2]⟩
private theorem docs_ok : ∀ xs : List Iface, Iface.Possibles xs → J.WFs (doc.docs xs) ∧ J.interfaces (doc.docs xs) = xs
  | [], _ => ⟨trivial, rfl⟩
  | x :: xs, h => ⟨⟨(doc_ok x h.1).1, (docs_ok xs h.2).1⟩, by simp only [doc.docs, J.interfaces, (doc_ok x h.1).2, (docs_ok xs h.2).2]⟩
private theorem docf_ok : ∀ xs : List (Bytes × Iface), Iface.Possiblef xs → J.WFf (doc.docf xs) ∧ J.interfacef (doc.docf xs) = xs
  | [], _ => ⟨trivial, rfl⟩
  | (k, x) :: xs, h => ⟨⟨(doc_ok x h.1).1, (docf_ok xs h.2).1⟩, by simp only [doc.docf, J.interfacef, (doc_ok x h.1).2, (docf_ok xs h.2).2]⟩
end

/-- **C88, the other way.** Every Go value made of nil, booleans, int64, float64, strings, non-nil slices of interfaces and
maps from strings to interfaces is what `Interface()` of its `MarshalAll` returns. -/
theorem C88_interface (hs : GoSort sort) (i : Iface) (hi : i.Possible) {u : GU} (hu : i.go.Same u) (n : Nat) :
    ∃ j, marshalU sort ord pick false h n u = some j ∧ j.interface = i := by
  obtain ⟨h1, h2⟩ := doc_ok i hi
  exact ⟨_, C88_marshal_all hs (doc i) h1 (by rw [h2]; exact hu) n, by rw [renewed_interface, h2]⟩

mutual
theorem renewed_wf : ∀ v : J, v.WF → v.renewed.WF
  | .arr xs, h => by rw [J.renewed]; exact reneweds_wf xs h
  | .dict _ kvs, h => by rw [J.renewed]; exact ⟨sorted_by_keys (renewedf_keys kvs) h.1, renewedf_wf kvs h.2⟩
  | .null, _ => trivial
  | .bool _, _ => trivial
  | .int _, h => h
  | .float _ _, h => h
  | .str _, _ => trivial
  | .ptr _, _ => trivial
theorem reneweds_wf : ∀ xs : List J, J.WFs xs → J.WFs (J.reneweds xs)
  | [], _ => trivial
  | x :: xs, h => ⟨renewed_wf x h.1, reneweds_wf xs h.2⟩
theorem renewedf_wf : ∀ xs : List (Bytes × J), J.WFf xs → J.WFf (J.renewedf xs)
  | [], _ => trivial
  | (_, x) :: xs, h => ⟨renewed_wf x h.1, renewedf_wf xs h.2⟩
end

mutual
theorem renewed_noPtr : ∀ v : J, v.renewed.NoPtr
  | .arr xs => by rw [J.renewed]; exact reneweds_noPtr xs
  | .dict _ kvs => by rw [J.renewed]; exact renewedf_noPtr kvs
  | .null => trivial
  | .bool _ => trivial
  | .int _ => trivial
  | .float _ _ => trivial
  | .str _ => trivial
  | .ptr _ => trivial
theorem reneweds_noPtr : ∀ xs : List J, J.NoPtrs (J.reneweds xs)
  | [] => trivial
  | x :: xs => ⟨renewed_noPtr x, reneweds_noPtr xs⟩
theorem renewedf_noPtr : ∀ xs : List (Bytes × J), J.NoPtrf (J.renewedf xs)
  | [] => trivial
  | (_, x) :: xs => ⟨renewed_noPtr x, renewedf_noPtr xs⟩
end

mutual
theorem renewed_noNaN : ∀ v : J, v.FloatsSat (fun x _ => x ≠ .nan) → v.renewed.FloatsSat (fun x _ => x ≠ .nan)
  | .arr xs, h => by rw [J.renewed]; exact reneweds_noNaN xs h
  | .dict _ kvs, h => by rw [J.renewed]; exact renewedf_noNaN kvs h
  | .null, _ => trivial
  | .bool _, _ => trivial
  | .int _, _ => trivial
  | .float _ _, h => h
  | .str _, _ => trivial
  | .ptr _, _ => trivial
theorem reneweds_noNaN : ∀ xs : List J, J.FloatsSats (fun x _ => x ≠ .nan) xs → J.FloatsSats (fun x _ => x ≠ .nan) (J.reneweds xs)
  | [], _ => trivial
  | x :: xs, h => ⟨renewed_noNaN x h.1, reneweds_noNaN xs h.2⟩
theorem renewedf_noNaN : ∀ xs : List (Bytes × J), J.FloatsSatf (fun x _ => x ≠ .nan) xs → J.FloatsSatf (fun x _ => x ≠ .nan) (J.renewedf xs)
  | [], _ => trivial
  | (_, x) :: xs, h => ⟨renewed_noNaN x h.1, renewedf_noNaN xs h.2⟩
end

/-- **C88, Equals.** For a document without references and NaN, `MarshalAll(v.Interface())` is `Equals` to it. -/
theorem C88_equals (hs : GoSort sort) (v : J) (hv : v.WF) (hp : v.NoPtr) (hn : v.NoNaN) {u : GU} (hu : v.interface.go.Same u) {n : Nat} {j : J}
    (hm : marshalU sort ord pick false h n u = some j) : j.equals v = true ∧ v.equals j = true := by
  rw [C88_marshal_all hs v hv hu n] at hm
  have := Option.some.inj hm
  subst this
  have h1 : v.equals v.renewed = true := C32_interface_injective v _ hv (renewed_wf v hv) hp (renewed_noPtr v) hn (renewed_interface v).symm
  exact ⟨C32_interface_injective _ v (renewed_wf v hv) hv (renewed_noPtr v) hp (renewed_noNaN v hn) (renewed_interface v), h1⟩

mutual
theorem renewed_id : ∀ v : J, v.NoPtr → v.NoIds → v.FloatsSat (fun _ bit => bit = 64) → v.renewed = v
  | .arr xs, h1, h2, h3 => by rw [J.renewed, reneweds_id xs h1 h2 h3]
  | .dict id kvs, h1, h2, h3 => by
    obtain ⟨h2, h4⟩ := h2
    subst h2
    rw [J.renewed, renewedf_id kvs h1 h4 h3]
  | .null, _, _, _ => rfl
  | .bool _, _, _, _ => rfl
  | .int _, _, _, _ => rfl
  | .float x b, _, _, h => by
    have : b = 64 := h
    rw [J.renewed, this]
  | .str _, _, _, _ => rfl
  | .ptr _, h, _, _ => absurd h (by simp [J.NoPtr])
theorem reneweds_id : ∀ xs : List J, J.NoPtrs xs → J.NoIdss xs → J.FloatsSats (fun _ bit => bit = 64) xs → J.reneweds xs = xs
  | [], _, _, _ => rfl
  | x :: xs, h1, h2, h3 => by rw [J.reneweds, renewed_id x h1.1 h2.1 h3.1, reneweds_id xs h1.2 h2.2 h3.2]
theorem renewedf_id : ∀ xs : List (Bytes × J), J.NoPtrf xs → J.NoIdsf xs → J.FloatsSatf (fun _ bit => bit = 64) xs → J.renewedf xs = xs
  | [], _, _, _ => rfl
  | (k, x) :: xs, h1, h2, h3 => by rw [J.renewedf, renewed_id x h1.1 h2.1 h3.1, renewedf_id xs h1.2 h2.2 h3.2]
end

/-- **C88, identity.** Without references, node ids and numbers of 32 bits `MarshalAll(v.Interface())` is `v`: same text, same
everything. -/
theorem C88_identity (hs : GoSort sort) (v : J) (hv : v.WF) (hp : v.NoPtr) (hi : v.NoIds) (hf : v.FloatsSat fun _ bit => bit = 64) {u : GU}
    (hu : v.interface.go.Same u) (n : Nat) : marshalU sort ord pick false h n u = some v := by
  rw [C88_marshal_all hs v hv hu n, renewed_id v hp hi hf]

private theorem noNullss_mem {y : J} : ∀ {xs : List J}, y ∈ J.noNullss xs → ∃ x ∈ xs, x.isNullLit = false ∧ y = x.noNulls
  | [], hy => by simp [J.noNullss] at hy
  | x :: xs, hy => by
    rw [J.noNullss] at hy
    split at hy
    · obtain ⟨a, b, c⟩ := noNullss_mem hy; exact ⟨a, by simp [b], c⟩
    · rename_i hx
      rcases List.mem_cons.1 hy with hy | hy
      · exact ⟨x, by simp, by simpa using hx, hy⟩
      · obtain ⟨a, b, c⟩ := noNullss_mem hy; exact ⟨a, by simp [b], c⟩

private theorem noNullsf_mem {k : Bytes} {y : J} : ∀ {xs : List (Bytes × J)}, (k, y) ∈ J.noNullsf xs → ∃ x, (k, x) ∈ xs ∧ x.isNullLit = false ∧ y = x.noNulls
  | [], hy => by simp [J.noNullsf] at hy
  | (k', x) :: xs, hy => by
    rw [J.noNullsf] at hy
    split at hy
    · obtain ⟨a, b, c⟩ := noNullsf_mem hy; exact ⟨a, by simp [b], c⟩
    · rename_i hx
      rcases List.mem_cons.1 hy with hy | hy
      · obtain ⟨rfl, rfl⟩ := Prod.mk.inj hy
        exact ⟨x, by simp, by simpa using hx, rfl⟩
      · obtain ⟨a, b, c⟩ := noNullsf_mem hy; exact ⟨a, by simp [b], c⟩

private theorem noNulls_null {v : J} (h : v.noNulls = .null) : v.isNullLit = true := by
  cases v <;> simp [J.noNulls] at h <;> rfl

private theorem noNulls_at : ∀ (p : List Sel) (v : J), v.noNulls.at p = some .null → v = .null ∧ p = []
  | [], v, h => by
    rw [J.at] at h
    have := noNulls_null (Option.some.inj h)
    cases v <;> simp_all [J.isNullLit]
  | .key k :: p, .dict id kvs, h => by
    rw [J.noNulls, J.at] at h
    cases hg : smGet (J.noNullsf kvs) k with
    | none => rw [hg] at h; cases h
    | some y =>
      rw [hg] at h
      obtain ⟨x, _, hx, rfl⟩ := noNullsf_mem (smGet_mem hg)
      obtain ⟨rfl, _⟩ := noNulls_at p x h
      cases hx
  | .idx i :: p, .arr xs, h => by
    rw [J.noNulls, J.at] at h
    cases hg : (J.noNullss xs)[i]? with
    | none => rw [hg] at h; cases h
    | some y =>
      rw [hg] at h
      obtain ⟨x, _, hx, rfl⟩ := noNullss_mem (List.mem_of_getElem? hg)
      obtain ⟨rfl, _⟩ := noNulls_at p x h
      cases hx
  | .key _ :: _, .arr _, h => by simp [J.noNulls, J.at] at h
  | .idx _ :: _, .dict _ _, h => by simp [J.noNulls, J.at] at h
  | .key _ :: _, .null, h => by simp [J.noNulls, J.at] at h
  | .idx _ :: _, .null, h => by simp [J.noNulls, J.at] at h
  | .key _ :: _, .bool _, h => by simp [J.noNulls, J.at] at h
  | .idx _ :: _, .bool _, h => by simp [J.noNulls, J.at] at h
  | .key _ :: _, .int _, h => by simp [J.noNulls, J.at] at h
  | .idx _ :: _, .int _, h => by simp [J.noNulls, J.at] at h
  | .key _ :: _, .float _ _, h => by simp [J.noNulls, J.at] at h
  | .idx _ :: _, .float _ _, h => by simp [J.noNulls, J.at] at h
  | .key _ :: _, .str _, h => by simp [J.noNulls, J.at] at h
  | .idx _ :: _, .str _, h => by simp [J.noNulls, J.at] at h
  | .key _ :: _, .ptr _, h => by simp [J.noNulls, J.at] at h
  | .idx _ :: _, .ptr _, h => by simp [J.noNulls, J.at] at h

/-- **C88, no nulls.** What `Marshal(v.Interface())` returns has no null inside: it is null, or contains none. -/
theorem C88_no_nulls (hs : GoSort sort) (v : J) (hv : v.WF) {u : GU} (hu : v.interface.go.Same u) {n : Nat} {j : J}
    (hm : marshalU sort ord pick true h n u = some j) (p : List Sel) (hp : j.at p = some .null) : p = [] ∧ j = .null := by
  rw [C88_marshal hs v hv hu n] at hm
  have := Option.some.inj hm
  subst this
  obtain ⟨h1, h2⟩ := noNulls_at p _ hp
  exact ⟨h2, by rw [h1]; rfl⟩

mutual
private theorem noNulls_id : ∀ v : J, (∀ p, p ≠ [] → v.interface.at p ≠ some .nil) → v.WF → v.renewed.noNulls = v.renewed
  | .arr xs, h, hv => by
    rw [J.renewed, J.noNulls, noNullss_id xs (fun i p hi => h (.idx i :: p) (by simp) (by simpa [J.interface, Iface.at] using hi)) hv]
  | .dict _ kvs, h, hv => by
    rw [J.renewed, J.noNulls]
    refine congrArg _ (noNullsf_id kvs (fun k x hx p hi => h (.key k :: p) (by simp) ?_) hv.2)
    have hg : smGet kvs k = some x := smGet_of_mem hv.1 hx
    rw [J.interface, Iface.at]
    have : smGet (J.interfacef kvs) k = some x.interface := by rw [interfacef_map, smGet_map, hg]; rfl
    rw [this]; exact hi
  | .null, _, _ => rfl
  | .bool _, _, _ => rfl
  | .int _, _, _ => rfl
  | .float _ _, _, _ => rfl
  | .str _, _, _ => rfl
  | .ptr _, _, _ => rfl
private theorem noNullss_id : ∀ xs : List J, (∀ (i : Nat) p, ((J.interfaces xs)[i]?.bind (Iface.at · p)) ≠ some .nil) → J.WFs xs → J.noNullss (J.reneweds xs) = J.reneweds xs
  | [], _, _ => rfl
  | x :: xs, h, hv => by
    have hx : ∀ p, x.interface.at p ≠ some .nil := fun p hp => h 0 p (by simpa [J.interfaces] using hp)
    have h0 : x.interface ≠ .nil := fun he => hx [] (by rw [Iface.at, he])
    rw [J.reneweds, J.noNullss, noNulls_id x (fun p _ => hx p) hv.1, noNullss_id xs (fun i p hi => h (i + 1) p (by simpa [J.interfaces] using hi)) hv.2]
    rw [not_nil_renewed h0]; rfl
private theorem noNullsf_id : ∀ xs : List (Bytes × J), (∀ k x, (k, x) ∈ xs → ∀ p, x.interface.at p ≠ some .nil) → J.WFf xs → J.noNullsf (J.renewedf xs) = J.renewedf xs
  | [], _, _ => rfl
  | (k, x) :: xs, h, hv => by
    have hx : ∀ p, x.interface.at p ≠ some .nil := h k x (by simp)
    have h0 : x.interface ≠ .nil := fun he => hx [] (by rw [Iface.at, he])
    rw [J.renewedf, J.noNullsf, noNulls_id x (fun p _ => hx p) hv.1, noNullsf_id xs (fun k' x' hm => h k' x' (by simp [hm])) hv.2]
    rw [not_nil_renewed h0]; rfl
end

/-- **C88, the two calls.** If no nil is inside the Go value, `Marshal` and `MarshalAll` agree on it. -/
theorem C88_same (hs : GoSort sort) (v : J) (hv : v.WF) (hn : ∀ p, p ≠ [] → v.interface.at p ≠ some .nil) {u : GU} (hu : v.interface.go.Same u) (n : Nat) :
    marshalU sort ord pick true h n u = marshalU sort ord pick false h n u := by
  rw [C88_marshal hs v hv hu, C88_marshal_all hs v hv hu, noNulls_id v hn hv]

/-! ### Examples -/

/-- `{"a": [null, 1], "b": <0>}` with a node id. -/
private def spare : J := .dict 3 [(b!"a", .arr [.null, .int 1]), (b!"b", .ptr 0)]

private theorem spare_wf : spare.WF := ⟨.cons (by simp; decide) (.cons (by simp) .nil), ⟨trivial, ⟨by decide, by decide⟩, trivial⟩, trivial, trivial⟩

/-- Its Go value with the entries of the map listed in another order. -/
private def spareGo : GU := .map [(.text b!"b" none, .leaf .nil), (.text b!"a" none, .iface (.seq [.leaf .nil, .iface (.leaf (.int 1))]))]

private theorem spare_same : spare.interface.go.Same spareGo :=
  .map (.cons (.iface (.seq (.cons (.leaf _) (.cons (.iface (.leaf _)) .nil)))) (.cons (.leaf _) .nil)) (List.Perm.swap ..)

example : marshalU sortKeys ord pick false [] 0 spareGo = some (.dict 0 [(b!"a", .arr [.null, .int 1]), (b!"b", .null)]) :=
  C88_marshal_all sortKeys_sorts spare spare_wf spare_same 0

example : marshalU sortKeys ord pick true [] 0 spareGo = some (.dict 0 [(b!"a", .arr [.int 1])]) :=
  C88_marshal sortKeys_sorts spare spare_wf spare_same 0

example : (J.dict 0 [(b!"a", .arr [.bool false, .int 1])]).NoPtr ∧ (J.dict 0 [(b!"a", .arr [.bool false, .int 1])]).NoIds := by
  simp [J.NoPtr, J.NoPtrs, J.NoPtrf, J.NoIds, J.NoIdss, J.NoIdsf]

/-- A `float32` comes back as a `float64`: the document is `Equals`, its text another. -/
theorem C88_float32 (hs : GoSort sort) (x : GoFloat) {u : GU} (hu : (J.float x 32).interface.go.Same u) (n : Nat) (hx : x.Canonical) :
    marshalU sort ord pick false h n u = some (.float x 64) := C88_marshal_all hs (.float x 32) hx hu n

end Jsonutils.Props
