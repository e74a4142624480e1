import Verif.Props.Native.RustMulti
import Verif.Props.Native.Interop

/-!
# C83: archives exchanged between Rust, C++ and Python
-/

namespace Props
open Py Spec Model Model.Native _root_.Native

/-! ## The same files -/

theorem newFiles_unique {f f1 f2 : Files} {files : List (String × Bytes)} (h1 : NewFiles f f1 files) (h2 : NewFiles f f2 files) : f1 = f2 := by
  funext n; rw [h1 n, h2 n]

/-- **C83, the same files.** For the same values the Rust builder and the C++ builder leave a directory in the same state, byte for byte,
whatever the sizes of their buffers (for structures with a range: if the vector is not empty). -/
theorem C83_same_files_vector (limitR limitC : Nat) (overlapping : Bool) (f : Files) (name schema : String) (tyR : String → RustType)
    (tyC : String → CppType) (fs : List FieldDecl) (hg : GoodStruct fs) (hr : RustStruct fs) (elemsR elemsC : List (List (String × Int)))
    (hR : ∀ calls ∈ elemsR, ∀ c ∈ calls, RustCall tyR fs c) (hC : ∀ calls ∈ elemsC, ∀ c ∈ calls, CppCall tyC fs c)
    (hsame : elemsR.map (finalValues fs) = elemsC.map (finalValues fs)) (hne : overlapping = true → elemsR ≠ [])
    (hlimit : ((fs.map (·.width)).sum + 7) / 8 ≤ limitR) (hlen : ((fs.map (·.width)).sum + 7) / 8 * (elemsR.length + 1) < 2 ^ 64) :
    ∃ f', rustExternalVector limitR overlapping f name schema (((fs.map (·.width)).sum + 7) / 8) (elemsR.map (rustAssign tyR fs)) = some f' ∧
      cppExternalVector limitC f name schema (((fs.map (·.width)).sum + 7) / 8) (elemsC.map (cppAssign tyC fs)) = some f' := by
  have hll : elemsR.length = elemsC.length := by simpa using congrArg List.length hsame
  obtain ⟨f1, e1, h1⟩ := C81_rust_vector_files limitR overlapping f name schema tyR fs hg hr elemsR hR hlimit hlen
  obtain ⟨f2, e2, h2⟩ := C78_cpp_vector_files limitC f name schema tyC fs hg elemsC hC (by rw [Nat.mul_succ] at hlen; rw [← hll]; omega)
  have : stored overlapping elemsR = elemsR := if_neg fun h => hne h.1 h.2
  rw [this, hsame] at h1
  exact ⟨f1, e1, by rw [e2, newFiles_unique h1 h2]⟩

/-- **C83, the same files,** for multivectors. -/
theorem C83_same_files_multivector (limitR limitC : Nat) (hlim : 8 ≤ limitR) (f : Files) (name schema : String) (w : Nat) (hw : 1 ≤ w)
    (hw' : w ≤ 64) (decls : List (String × List FieldDecl)) (hd : GoodDecls decls) (hr : ∀ p ∈ decls, RustStruct p.2)
    (tyR : String → String → RustType) (tyC : String → String → CppType) (bucketsR bucketsC : List (List (String × List (String × Int))))
    (hR : ∀ b ∈ bucketsR, ∀ e ∈ b, ∃ fs, (e.1, fs) ∈ decls ∧ ∀ c ∈ e.2, RustCall (tyR e.1) fs c)
    (hC : ∀ b ∈ bucketsC, ∀ e ∈ b, ∃ fs, (e.1, fs) ∈ decls ∧ ∀ c ∈ e.2, CppCall (tyC e.1) fs c)
    (hsame : (bucketsR.map fun b => b.map (finalObj decls)) = bucketsC.map fun b => b.map (finalObj decls))
    (hsize : (bucketsBytes decls (bucketsR.map fun b => b.map (finalObj decls))).length < 2 ^ w)
    (hlen : (w + 7) / 8 * (bucketsR.length + 1) < 2 ^ 64) :
    ∃ f', rustMultiVector limitR f name schema w (bucketsR.map fun b => b.map (rustElement decls tyR)) = some f' ∧
      cppMultiVector limitC f name schema w (bucketsC.map fun b => b.map (cppElement decls tyC)) = some f' := by
  have hll : bucketsR.length = bucketsC.length := by simpa using congrArg List.length hsame
  obtain ⟨f1, e1, h1⟩ := C81_rust_multivector_files limitR hlim f name schema w hw hw' decls hd hr tyR bucketsR hR hsize hlen
  rw [hsame] at h1 hsize
  obtain ⟨f2, e2, h2⟩ := C78_cpp_multivector_files limitC f name schema w hw hw' decls hd tyC bucketsC hC hsize (by rw [← hll]; exact hlen)
  exact ⟨f1, e1, by rw [e2, newFiles_unique h1 h2]⟩

/-! ## From Rust to Python and C++ -/

/-- **C83, a vector written in Rust and read in Python.** An empty vector of structures with a range has one element in Python, all of
whose fields are zero. -/
theorem C83_rust_to_python_vector (limit : Nat) (overlapping : Bool) (f : Files) (name schema sname : String) (ty : String → RustType)
    (fs : List FieldDecl) (hg : GoodStruct fs) (hfs : fs ≠ []) (hr : RustStruct fs) (elems : List (List (String × Int)))
    (hc : ∀ calls ∈ elems, ∀ c ∈ calls, RustCall ty fs c) (hlimit : ((fs.map (·.width)).sum + 7) / 8 ≤ limit)
    (hlen : ((fs.map (·.width)).sum + 7) / 8 * (elems.length + 1) < 2 ^ 63) :
    ∃ f' mem v, rustExternalVector limit overlapping f name schema (((fs.map (·.width)).sum + 7) / 8) (elems.map (rustAssign ty fs)) = some f' ∧
      f' name = some mem ∧ f' (name ++ ".schema") = some (encodeUtf8 schema) ∧
      FdVector.create mem (mkStruct sname fs) = .ok v ∧ v.len = .ok (if overlapping = true ∧ elems = [] then 1 else elems.length) ∧
      ∀ (i : Nat) calls, (stored overlapping elems)[i]? = some calls → ∃ x, v.get (i : Int) = .ok x ∧ ReadsAs x fs (finalValues fs calls) := by
  obtain ⟨f', e, hn⟩ := C81_rust_vector_files limit overlapping f name schema ty fs hg hr elems hc hlimit (by omega)
  have hh := newFiles_has hn (pair_names_nodup _ _ _)
  have hsl : (stored overlapping elems).length = if overlapping = true ∧ elems = [] then 1 else elems.length := by
    unfold stored; split <;> rfl
  have hsl' : (stored overlapping elems).length ≤ elems.length + 1 := by rw [hsl]; split <;> omega
  obtain ⟨v, h1, h2, h3⟩ := C80_python_reads_vector sname fs hg hfs ((stored overlapping elems).map (finalValues fs))
    (fun d hd => by obtain ⟨c, -, rfl⟩ := List.mem_map.mp hd; exact finalValues_fits hg.names c) (by
      rw [List.length_map]
      exact lt_of_le_of_lt (Nat.mul_le_mul_left _ hsl') hlen)
  refine ⟨f', _, v, e, hh (name, _) List.mem_cons_self, hh (name ++ ".schema", _) (List.mem_cons_of_mem _ List.mem_cons_self), h1,
    by rw [h2, List.length_map, hsl], ?_⟩
  intro i calls hi
  exact h3 i _ (by rw [List.getElem?_map, hi]; rfl)

/-- **C83, a vector written in Rust and read in C++.** -/
theorem C83_rust_to_cpp_vector (limit : Nat) (overlapping : Bool) (f : Files) (name schema : String) (hs : encodeUtf8 schema ≠ [])
    (tyR : String → RustType) (tyC : String → CppType) (fs : List FieldDecl) (hg : GoodStruct fs) (hfs : fs ≠ []) (hr : RustStruct fs)
    (ht : CppTypes tyC fs) (elems : List (List (String × Int)))
    (hc : ∀ calls ∈ elems, ∀ c ∈ calls, RustCall tyR fs c) (hlimit : ((fs.map (·.width)).sum + 7) / 8 ≤ limit)
    (hlen : ((fs.map (·.width)).sum + 7) / 8 * (elems.length + 1) + 16 < 2 ^ 64) :
    ∃ f' v, rustExternalVector limit overlapping f name schema (((fs.map (·.width)).sum + 7) / 8) (elems.map (rustAssign tyR fs)) = some f' ∧
      cppOpenVector overlapping f' name schema (((fs.map (·.width)).sum + 7) / 8) = some v ∧
      v.size = (if overlapping then elems.length - 1 else elems.length) ∧
      ∀ i (hi : i < elems.length), CppShows tyC fs (v.at (((fs.map (·.width)).sum + 7) / 8) i) (finalValues fs elems[i]) := by
  obtain ⟨f', e, hn⟩ := C81_rust_vector_files limit overlapping f name schema tyR fs hg hr elems hc hlimit (by omega)
  have hh := newFiles_has hn (pair_names_nodup _ _ _)
  have hsl : (stored overlapping elems).length ≤ elems.length + 1 := by
    unfold stored; split <;> simp
  have hm := Nat.mul_le_mul_left (((fs.map (·.width)).sum + 7) / 8) hsl
  obtain ⟨v, h1, h2, h3⟩ := C79_cpp_vector tyC fs hg hfs ht overlapping f' name schema hs ((stored overlapping elems).map (finalValues fs))
    (by rw [List.length_map]; omega) hh
  refine ⟨f', v, e, h1, ?_, ?_⟩
  · rw [h2, List.length_map]
    by_cases hc : overlapping = true ∧ elems = []
    · obtain ⟨rfl, rfl⟩ := hc; rfl
    · rw [stored, if_neg hc]
  · intro i hi
    have hst : stored overlapping elems = elems := if_neg fun h => by rw [h.2] at hi; simp at hi
    have := h3 i (by rw [hst]; simpa using hi)
    simpa [hst] using this

theorem finalObj_fits {decls : List (String × List FieldDecl)} (hd : GoodDecls decls)
    {buckets : List (List (String × List (String × Int)))} (hc : ∀ b ∈ buckets, ∀ e ∈ b, ∃ fs, (e.1, fs) ∈ decls) :
    BucketsFit decls (buckets.map fun b => b.map (finalObj decls)) := by
  intro b hb o ho
  obtain ⟨b', hb', rfl⟩ := List.mem_map.mp hb
  obtain ⟨e, he, rfl⟩ := List.mem_map.mp ho
  obtain ⟨fs, hm⟩ := hc b' hb' e he
  refine ⟨fs, hm, ?_⟩
  simp only [finalObj, lookup_of_mem hd.names hm, Option.getD_some]
  exact finalValues_fits (hd.good _ hm).names _

theorem finalObj_known {decls : List (String × List FieldDecl)}
    {buckets : List (List (String × List (String × Int)))} (hc : ∀ b ∈ buckets, ∀ e ∈ b, ∃ fs, (e.1, fs) ∈ decls) :
    ∀ b ∈ buckets.map (fun b => b.map (finalObj decls)), ∀ o ∈ b, ∃ fs, (o.name, fs) ∈ decls := by
  intro b hb o ho
  obtain ⟨b', hb', rfl⟩ := List.mem_map.mp hb
  obtain ⟨e, he, rfl⟩ := List.mem_map.mp ho
  exact hc b' hb' e he

/-- **C83, a multivector written in Rust and read in Python.** -/
theorem C83_rust_to_python_multivector (limit : Nat) (hlim : 8 ≤ limit) (f : Files) (name schema ns : String) (w : Nat) (hw : 1 ≤ w)
    (hw' : w ≤ 64) (decls : List (String × List FieldDecl)) (hd : GoodDecls decls) (hr : ∀ p ∈ decls, RustStruct p.2)
    (ty : String → String → RustType) (buckets : List (List (String × List (String × Int))))
    (hc : ∀ b ∈ buckets, ∀ e ∈ b, ∃ fs, (e.1, fs) ∈ decls ∧ ∀ c ∈ e.2, RustCall (ty e.1) fs c)
    (hsize : (bucketsBytes decls (buckets.map fun b => b.map (finalObj decls))).length < 2 ^ w)
    (hlen : (w + 7) / 8 * (buckets.length + 1) < 2 ^ 63) :
    ∃ f' mem indexMem mv, rustMultiVector limit f name schema w (buckets.map fun b => b.map (rustElement decls ty)) = some f' ∧
      f' name = some mem ∧ f' (name ++ ".schema") = some (encodeUtf8 schema) ∧ f' (name ++ "_index") = some indexMem ∧
      Multivector.create indexMem mem (indexType ns w) (classes decls) = .ok mv ∧ mv.len = .ok buckets.length ∧
      ∀ (i : Nat) bucket, buckets[i]? = some bucket →
        ∃ xs, mv.get (i : Int) = .ok xs ∧ List.Forall₂ (ElemReads decls) xs (bucket.map (finalObj decls)) := by
  obtain ⟨f', e, hn⟩ := C81_rust_multivector_files limit hlim f name schema w hw hw' decls hd hr ty buckets hc hsize (by omega)
  have hh := newFiles_has hn (multi_names_nodup _ _ _ _ _)
  obtain ⟨mv, h1, h2, h3⟩ := C80_python_reads_multivector ns w hw hw' decls hd (buckets.map fun b => b.map (finalObj decls))
    (finalObj_fits hd fun b hb e he => by obtain ⟨fs, h, -⟩ := hc b hb e he; exact ⟨fs, h⟩) hsize (by simpa using hlen)
  refine ⟨f', _, _, mv, e, hh (name, _) List.mem_cons_self, hh (name ++ ".schema", _) (List.mem_cons_of_mem _ List.mem_cons_self),
    hh (name ++ "_index", _) (List.mem_cons_of_mem _ (List.mem_cons_of_mem _ List.mem_cons_self)), h1, by simpa using h2, ?_⟩
  intro i bucket hi
  exact h3 i _ (by rw [List.getElem?_map, hi]; rfl)

/-- **C83, a multivector written in Rust and read in C++.** -/
theorem C83_rust_to_cpp_multivector (limit : Nat) (hlim : 8 ≤ limit) (f : Files) (name schema : String) (hs : encodeUtf8 schema ≠ []) (w : Nat)
    (hw : 1 ≤ w) (hw' : w ≤ 64) (decls : List (String × List FieldDecl)) (hd : GoodDecls decls) (hr : ∀ p ∈ decls, RustStruct p.2)
    (tyR : String → String → RustType) (tyC : String → String → CppType) (ht : ∀ p ∈ decls, CppTypes (tyC p.1) p.2)
    (buckets : List (List (String × List (String × Int))))
    (hc : ∀ b ∈ buckets, ∀ e ∈ b, ∃ fs, (e.1, fs) ∈ decls ∧ ∀ c ∈ e.2, RustCall (tyR e.1) fs c)
    (hsize : (bucketsBytes decls (buckets.map fun b => b.map (finalObj decls))).length < 2 ^ w)
    (hsize' : (bucketsBytes decls (buckets.map fun b => b.map (finalObj decls))).length + 16 < 2 ^ 64)
    (hlen : (w + 7) / 8 * (buckets.length + 1) + 16 < 2 ^ 64) :
    ∃ f' m, rustMultiVector limit f name schema w (buckets.map fun b => b.map (rustElement decls tyR)) = some f' ∧
      cppOpenMulti f' name schema w = some m ∧ m.index.size = buckets.length ∧
      ∀ i (hi : i < buckets.length), ∃ l, m.forEach w (declSizes decls) i = some l ∧
        List.Forall₂ (CppShowsObj tyC decls) l (buckets[i].map (finalObj decls)) := by
  obtain ⟨f', e, hn⟩ := C81_rust_multivector_files limit hlim f name schema w hw hw' decls hd hr tyR buckets hc hsize (lt_of_le_of_lt (Nat.le_add_right _ 16) hlen)
  have hh := newFiles_has hn (multi_names_nodup _ _ _ _ _)
  obtain ⟨m, h1, h2, h3⟩ := C79_cpp_multivector w hw hw' decls hd tyC ht f' name schema hs (buckets.map fun b => b.map (finalObj decls))
    (finalObj_known fun b hb e he => by obtain ⟨fs, h, -⟩ := hc b hb e he; exact ⟨fs, h⟩) hsize hsize' (by rw [List.length_map]; exact hlen)
    hh
  refine ⟨f', m, e, h1, by rw [h2, List.length_map], fun i hi => ?_⟩
  have := (h3 i (by rw [List.length_map]; exact hi)).1
  rw [List.getElem_map] at this
  exact this

/-! ## From Python and C++ to Rust -/

/-- **C83, a vector written in Python and read in Rust** (not an empty one, if the structure has a range). -/
theorem C83_python_to_rust_vector (A : ArchiveType) (path name sname schema : String) (opt : Bool) (fs : List FieldDecl) (ds : List Dict)
    (s : BState) (f : Files) (hA : A.resources.lookup name = some (.vector (mkStruct sname fs) schema opt))
    (hpath : path ≠ "") (hname : name ≠ "") (hnew : name ∉ s.written) (hg : GoodStruct fs) (hfs : fs ≠ []) (hr : RustStruct fs)
    (hd : ∀ d ∈ ds, DictFits fs d) (hlen : ((fs.map (·.width)).sum + 7) / 8 * ds.length + 16 < 2 ^ 64)
    (ty : String → RustType) (ht : RustTypes ty fs) (overlapping : Bool) (hne : overlapping = true → ds ≠ []) :
    ∃ s' v, setResource A path name (.list ds) s = (.ok (), s') ∧
      (rustReadAndCheck (filesOfState f s') name schema).andThen (rustFromBytes overlapping (((fs.map (·.width)).sum + 7) / 8)) = .ok v ∧
      v.len = (if overlapping then ds.length - 1 else ds.length) ∧
      ∀ i (hi : i < ds.length), i < v.len →
        ∃ mem, v.at (((fs.map (·.width)).sum + 7) / 8) i = some mem ∧ RustShows ty fs mem ds[i] := by
  obtain ⟨s', e, hl⟩ := C77_vector_files A path name sname schema opt fs ds s f hA hpath hname hnew hg hd (by rw [mkStruct_size]; omega)
  obtain ⟨v, h1, h2, -, h3⟩ := (C82_rust_vector ty fs hg hfs hr ht overlapping (filesOfState f s') name schema ds hlen
    (newFiles_has hl (pair_names_nodup _ _ _))).2 fun h => hne h.1 h.2
  refine ⟨s', v, e, h1, h2, fun i hi hi' => ?_⟩
  obtain ⟨mem, h4, h5, -⟩ := h3 i hi hi'
  exact ⟨mem, h4, h5⟩

/-- **C83, a multivector written in Python and read in Rust.** -/
theorem C83_python_to_rust_multivector (A : ArchiveType) (path name schema ns : String) (opt : Bool) (W : Nat)
    (decls : List (String × List FieldDecl)) (value : List (List Obj)) (s : BState) (f : Files)
    (hA : A.resources.lookup name = some (.multivector (indexType ns W) (classes decls) schema opt))
    (hpath : path ≠ "") (hname : name ≠ "") (hnew : name ∉ s.written) (hW : 1 ≤ W) (hW' : W ≤ 64)
    (hd : GoodDecls decls) (hr : ∀ p ∈ decls, RustStruct p.2) (hv : BucketsFit decls value)
    (hsize : (bucketsBytes decls value).length < 2 ^ W) (hsize' : (bucketsBytes decls value).length + 16 < 2 ^ 64)
    (hlen : (W + 7) / 8 * (value.length + 1) + 16 < 2 ^ 64)
    (ty : String → String → RustType) (ht : ∀ p ∈ decls, RustTypes (ty p.1) p.2) :
    ∃ s' m, setResource A path name (.buckets value) s = (.ok (), s') ∧
      rustOpenMulti (filesOfState f s') name schema W = .ok m ∧ m.index.len = value.length ∧
      ∀ i (hi : i < value.length), ∃ b l, m.at W i = some b ∧ rustItems (declSizes decls) b.length b = some l ∧
        List.Forall₂ (RustShowsObj ty decls) l value[i] := by
  have hv' : ∀ b ∈ value, ∀ o ∈ b, ∃ fs, (o.name, fs) ∈ decls := by
    intro b hb o ho
    obtain ⟨fs, hm, -⟩ := hv b hb o ho
    exact ⟨fs, hm⟩
  have hp1 : 2 ^ W ≤ 2 ^ (8 * ((W + 7) / 8)) := Nat.pow_le_pow_right (by omega) (by omega)
  obtain ⟨s', e, hl⟩ := C77_multivector_files A path name schema opt W decls value s f hA hpath hname hnew hW hd hv (by omega) (by omega)
    (by omega)
  obtain ⟨m, h1, h2, h3, -⟩ := C82_rust_multivector W hW hW' decls hd hr ty ht (filesOfState f s') name schema value hv' hsize hsize' hlen
    (newFiles_has hl (multi_names_nodup _ _ _ _ _))
  exact ⟨s', m, e, h1, h2, h3⟩

/-- **C83, a vector written in C++ and read in Rust** (not an empty one, if the structure has a range). -/
theorem C83_cpp_to_rust_vector (limit : Nat) (f : Files) (name schema : String) (tyC : String → CppType) (tyR : String → RustType)
    (fs : List FieldDecl) (hg : GoodStruct fs) (hfs : fs ≠ []) (hr : RustStruct fs) (ht : RustTypes tyR fs)
    (elems : List (List (String × Int))) (hc : ∀ calls ∈ elems, ∀ c ∈ calls, CppCall tyC fs c)
    (hlen : ((fs.map (·.width)).sum + 7) / 8 * elems.length + 16 < 2 ^ 64) (overlapping : Bool) (hne : overlapping = true → elems ≠ []) :
    ∃ f' v, cppExternalVector limit f name schema (((fs.map (·.width)).sum + 7) / 8) (elems.map (cppAssign tyC fs)) = some f' ∧
      (rustReadAndCheck f' name schema).andThen (rustFromBytes overlapping (((fs.map (·.width)).sum + 7) / 8)) = .ok v ∧
      v.len = (if overlapping then elems.length - 1 else elems.length) ∧
      ∀ i (hi : i < elems.length), i < v.len →
        ∃ mem, v.at (((fs.map (·.width)).sum + 7) / 8) i = some mem ∧ RustShows tyR fs mem (finalValues fs elems[i]) := by
  obtain ⟨f', e, hn⟩ := C78_cpp_vector_files limit f name schema tyC fs hg elems hc (by omega)
  obtain ⟨v, h1, h2, -, h3⟩ := (C82_rust_vector tyR fs hg hfs hr ht overlapping f' name schema (elems.map (finalValues fs))
    (by simpa using hlen) (newFiles_has hn (pair_names_nodup _ _ _))).2 fun h => hne h.1 (by simpa using h.2)
  refine ⟨f', v, e, h1, by simpa using h2, fun i hi hi' => ?_⟩
  obtain ⟨mem, h4, h5, -⟩ := h3 i (by simpa using hi) hi'
  exact ⟨mem, h4, by simpa using h5⟩

/-- **C83, a multivector written in C++ and read in Rust.** -/
theorem C83_cpp_to_rust_multivector (limit : Nat) (f : Files) (name schema : String) (w : Nat)
    (hw : 1 ≤ w) (hw' : w ≤ 64) (decls : List (String × List FieldDecl)) (hd : GoodDecls decls) (hr : ∀ p ∈ decls, RustStruct p.2)
    (tyC : String → String → CppType) (tyR : String → String → RustType) (ht : ∀ p ∈ decls, RustTypes (tyR p.1) p.2)
    (buckets : List (List (String × List (String × Int))))
    (hc : ∀ b ∈ buckets, ∀ e ∈ b, ∃ fs, (e.1, fs) ∈ decls ∧ ∀ c ∈ e.2, CppCall (tyC e.1) fs c)
    (hsize : (bucketsBytes decls (buckets.map fun b => b.map (finalObj decls))).length < 2 ^ w)
    (hsize' : (bucketsBytes decls (buckets.map fun b => b.map (finalObj decls))).length + 16 < 2 ^ 64)
    (hlen : (w + 7) / 8 * (buckets.length + 1) + 16 < 2 ^ 64) :
    ∃ f' m, cppMultiVector limit f name schema w (buckets.map fun b => b.map (cppElement decls tyC)) = some f' ∧
      rustOpenMulti f' name schema w = .ok m ∧ m.index.len = buckets.length ∧
      ∀ i (hi : i < buckets.length), ∃ b l, m.at w i = some b ∧ rustItems (declSizes decls) b.length b = some l ∧
        List.Forall₂ (RustShowsObj tyR decls) l (buckets[i].map (finalObj decls)) := by
  obtain ⟨f', e, hn⟩ := C78_cpp_multivector_files limit f name schema w hw hw' decls hd tyC buckets hc hsize (lt_of_le_of_lt (Nat.le_add_right _ 16) hlen)
  have hh := newFiles_has hn (multi_names_nodup _ _ _ _ _)
  obtain ⟨m, h1, h2, h3, -⟩ := C82_rust_multivector w hw hw' decls hd hr tyR ht f' name schema (buckets.map fun b => b.map (finalObj decls))
    (finalObj_known fun b hb e he => by obtain ⟨fs, h, -⟩ := hc b hb e he; exact ⟨fs, h⟩) hsize hsize' (by rw [List.length_map]; exact hlen)
    hh
  refine ⟨f', m, e, h1, by rw [h2, List.length_map], fun i hi => ?_⟩
  have := h3 i (by rw [List.length_map]; exact hi)
  rw [List.getElem_map] at this
  exact this

/-! ## The hypotheses are met -/

/-- the Rust types of the sample -/
def sampleTyR : String → RustType := fun n => if n = "x" then .int 16 false else .int 8 true

theorem sample_callsR : ∀ calls ∈ sampleElems, ∀ c ∈ calls, RustCall sampleTyR sampleFields c := by
  have hx : ∀ v : Int, 0 ≤ v → v < 4096 → RustCall sampleTyR sampleFields ("x", v) := fun v h0 h1 =>
    ⟨⟨"x", 12, false⟩, by simp [sampleFields], rfl, by simp [sampleTyR, RustType.isSigned, InRange]; omega, by simp⟩
  have hy : ∀ v : Int, -8 ≤ v → v < 8 → RustCall sampleTyR sampleFields ("y", v) := fun v h0 h1 =>
    ⟨⟨"y", 4, true⟩, by simp [sampleFields], rfl, by simp [sampleTyR, RustType.isSigned, InRange]; omega, by simp⟩
  intro calls hc c h
  simp only [sampleElems, List.mem_cons, List.not_mem_nil, or_false] at hc
  rcases hc with rfl | rfl | rfl <;> simp only [List.mem_cons, List.not_mem_nil, or_false] at h
  · rcases h with rfl | rfl
    · exact hx _ (by decide) (by decide)
    · exact hy _ (by decide) (by decide)
  · rcases h with rfl | rfl | rfl
    · exact hx _ (by decide) (by decide)
    · exact hy _ (by decide) (by decide)
    · exact hx _ (by decide) (by decide)

example : RustStruct sampleFields ∧ RustTypes sampleTyR sampleFields := by
  refine ⟨fun i f hi => ?_, fun f hf => ?_⟩
  · match i, hi with
    | 0, hi => cases hi; simp [RustPortable, bitOffset]
    | 1, hi => cases hi; simp [RustPortable, bitOffset, sampleFields]
  · simp only [sampleFields, List.mem_cons, List.not_mem_nil, or_false] at hf
    rcases hf with rfl | rfl <;> simp [sampleTyR, RustHolds, RustType.isSigned]

/-- The sample written in Rust: the same file as from C++ (`Interop.lean`), and what Rust reads. -/
example : ((rustExternalVector 4 false (fun _ => none) "v" "S" 2 (sampleElems.map (rustAssign sampleTyR sampleFields))).bind fun f => f "v") =
    some [6, 0, 0, 0, 0, 0, 0, 0, 44, 225, 1, 112, 0, 0, 0, 0, 0, 0, 0, 0, 0, 0] := by decide +kernel

example : ((rustExternalVector 4 false (fun _ => none) "v" "S" 2 (sampleElems.map (rustAssign sampleTyR sampleFields))).map fun f =>
    (match (rustReadAndCheck f "v" "S").andThen (rustFromBytes false 2) with
      | .ok v => (v.len, [0, 1, 2, 3].map fun i =>
          (v.at 2 i).map fun m => (rustGet sampleTyR sampleFields m "x", rustGet sampleTyR sampleFields m "y"))
      | _ => (0, []))) =
    some (3, [some (some 300, some (-2)), some (some 1, some 7), some (some 0, some 0), none]) := by decide +kernel

/-- the sample multivector of `Interop.lean`, written in Rust -/
def sampleFilesR : Option Files := rustMultiVector 8 (fun _ => none) "m" "M" 8
  ([[("A", [("x", 7)])], [], [("B", [("y", -2)]), ("A", [])]].map fun b =>
    b.map (rustElement sampleDecls fun n _ => if n = "A" then .int 8 false else .int 16 true))

example : (sampleFilesR.bind (· "m")) = sampleFiles.bind (· "m") ∧ (sampleFilesR.bind (· "m_index")) = (sampleFiles.bind (· "m_index")) ∧
    sampleFiles.isSome = true := by
  decide +kernel

/-- What Rust reads from it: elements of the buckets, and a run of the iterator from both ends. -/
example : (sampleFilesR.map fun f => match rustOpenMulti f "m" "M" 8 with
      | .ok m => ([0, 1, 2].map fun i => (m.at 8 i).bind fun b => (rustItems [1, 2] b.length b).map fun l => l.map (·.1),
          m.run 8 [false, true, true, true, false])
      | _ => ([], none)) =
    some ([some [0], some [], some [1, 0]], some [some [1, 254, 255, 0, 0], some [0, 7], some [], none, none]) := by decide +kernel

/-- An empty vector of structures with a range that was written in Python (or with the incremental builder of C++) cannot be opened in
Rust. -/
theorem C83_counterexample_empty_range :
    ((cppExternalVector 0 (fun _ => none) "v" "S" 2 []).map fun f =>
      match (rustReadAndCheck f "v" "S").andThen (rustFromBytes true 2) with
      | .error .unexpectedDataSize => true
      | _ => false) = some true := by decide +kernel

/-- A range field that spans nine bytes (64 bits at bit 1, in a structure of nine bytes): the first value of the range is read
correctly, the second one is not. -/
theorem C82_counterexample_range :
    let mem : Bytes := List.replicate 9 0 ++ [0, 0, 0, 0, 0, 0, 0, 0, 1] ++ List.replicate 20 0
    fieldValue mem (1 + 9 * 8) 64 false = 2 ^ 63 ∧ rustRange (.int 64 false) mem 1 64 9 = some (0, 0) := by decide +kernel

end Props
