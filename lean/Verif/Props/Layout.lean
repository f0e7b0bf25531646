import Verif.Proof.LayoutRead
import Verif.Proof.Sample

/-!
# C62: the byte format

`Verif/Spec/Layout.lean` says which bytes stand for which recording. What `Write` produces follows it, and `Read`
understands every file that follows it, also those `Write` would never produce: other orders of the tables, repeated
entries, other tables, arbitrary padding.
-/

namespace Rap

open Layout

/-- C62: what `Write` produces follows the grammar and stands for the recording as the chosen techniques store it; the
number returned is the size without compression. -/
theorem C62_written (F : Flate) (hF : F.Lawful) (ws : List Builtin) (tech : Nat) (ht : tech ≤ 2) (compress : Bool)
    (orders : List (List Bytes)) (rec : Rec) (hg : GoodRec rec) (hko : KeyOrders rec orders) (out out' : Buf) (n : Nat)
    (h : write F ⟨ws.map Builtin.encoder, tech, compress⟩ orders rec out = .ok (n, none, out')) (hn : n ≤ sizeLimit) :
    ∃ file, out'.bytes = out.bytes ++ file ∧
      File F (rec.mapColls fun c => storedColl ws c (storedTimes tech c.times)) n file :=
  file_put F hF ws tech ht compress orders rec hg hko out out' n h hn

/-- The sample recording can be written. -/
example : storeFlate.Lawful ∧ GoodRec sample ∧ KeyOrders sample sampleOrders ∧
    ∃ out, write storeFlate ⟨losslessEncoders.map Builtin.encoder, 0, false⟩ sampleOrders sample (⟨[]⟩ : Buf) =
      .ok (289, none, out) :=
  ⟨storeFlate_lawful, sample_good, sample_orders, sample_write⟩

/-- C62: `Read`, with at least one encoder for each of the package's signatures, reads every file that follows the
grammar as the recording it stands for. -/
theorem C62_read (F : Flate) (X : Ext) (unmarshal : Bytes → Except Err V1.Recording) (rs : List Builtin)
    (hrs : ∀ s ∈ signatures, ∃ e ∈ rs, e.encoder.sig = s) (rec : Rec) (n : Nat) (file : Bytes) (h : File F rec n file)
    (hn : n ≤ sizeLimit) :
    ∃ s, read F X unmarshal (rs.map Builtin.encoder) (⟨file, .eof⟩ : Flat) = .ok ((rec, n, none), s) :=
  file_get F X unmarshal rs hrs h hn

/-- The encoders of the package cover all signatures. -/
theorem losslessEncoders_cover : ∀ s ∈ signatures, ∃ e ∈ losslessEncoders, e.encoder.sig = s := by
  simp only [signatures, sig_position, sig_euler, sig_event, sig_enum, sig_float]
  intro s hs
  simp only [List.mem_cons, List.not_mem_nil, or_false] at hs
  rcases hs with rfl | rfl | rfl | rfl | rfl
  · exact ⟨.position 0, by simp [losslessEncoders], rfl⟩
  · exact ⟨.euler 0, by simp [losslessEncoders], rfl⟩
  · exact ⟨.event, by simp [losslessEncoders], rfl⟩
  · exact ⟨.enum, by simp [losslessEncoders], rfl⟩
  · exact ⟨.float 0, by simp [losslessEncoders], rfl⟩

/-- A file `Write` cannot produce: the key table has the key `k` twice and the second entry is the one used; the padding
of the rotation is not zero. It stands for a recording with one rotation, at time 0. -/
def oddFile : Bytes :=
  [2, 1, 14, 114, 101, 99, 111, 108, 117, 100, 101, 46, 101, 117, 108, 101, 114, 0, 0] ++
  ([0] ++ ([2, 1, 107, 1, 107] ++ ([1, 105] ++ ([0] ++ ([1, 1, 5, 9] ++
  ([1, 0, 1, 114, 0, 1, 0, 0, 0, 0, 0, 0, 0, 0,
    31, 0, 0, 0, 0, 0, 0, 0, 0, 0, 7, 7, 0, 0, 0, 0, 0, 0, 0, 0, 8, 8, 0, 0, 0, 0, 0, 0, 0, 0, 9, 9] ++
  ([0] ++ ([0] ++ ([0] ++ [])))))))))

def oddRec : Rec :=
  .mk [105] [] [some (.euler [114] [(0, ⟨0, 0, 0⟩)])] [] [([107], .byte 9)] [] []

theorem odd_follows (F : Flate) : File F oddRec 81 oddFile := by
  have z8 : Double 0 [0, 0, 0, 0, 0, 0, 0, 0] :=
    .cons 0 (.cons 0 (.cons 0 (.cons 0 (.cons 0 (.cons 0 (.cons 0 (.cons 0 .nil)))))))
  have v0 : Varint 0 [0] := .last 0 (by decide)
  have v1 : Varint 1 [1] := .last 1 (by decide)
  have v2 : Varint 2 [2] := .last 2 (by decide)
  have v14 : Varint eulerSig.length [14] := by
    rw [show eulerSig.length = 14 from congrArg List.length sig_euler]
    exact .last 14 (by decide)
  have v31 : Varint 31 [31] := .last 31 (by decide)
  have hcap : Captures [114] [0] eulerSig [] (.euler [114] [(0, ⟨0, 0, 0⟩)])
      (0 :: (([0, 0, 0, 0, 0, 0, 0, 0] ++ ([7, 7] ++ ([0, 0, 0, 0, 0, 0, 0, 0] ++ ([8, 8] ++
        ([0, 0, 0, 0, 0, 0, 0, 0] ++ [9, 9]))))) ++ [])) :=
    .euler (vs := [⟨0, 0, 0⟩]) rfl (.raw64 (.cons (.mk z8 z8 z8 rfl rfl rfl) .nil))
  have hstream : Stream [(eulerSig, [])] (.euler [114] [(0, ⟨0, 0, 0⟩)])
      ([0] ++ (([1] ++ [114]) ++ ((0 :: ([1] ++ ([0, 0, 0, 0, 0, 0, 0, 0] ++ []))) ++ ([31] ++ _)))) :=
    .mk rfl v0 (.mk v1) (.raw64 (ts := [0]) v1 (.cons z8 .nil)) (.mk (s := 0 :: (([0, 0, 0, 0, 0, 0, 0, 0] ++ ([7, 7] ++ ([0, 0, 0, 0, 0, 0, 0, 0] ++ ([8, 8] ++
        ([0, 0, 0, 0, 0, 0, 0, 0] ++ [9, 9]))))) ++ [])) (by simpa using v31)) hcap
  have hmeta : ∀ md places b, (md.map (·.1)).Nodup →
      List.Forall₂ (fun i (kv : Bytes × Property) => [[107], [107]][i]? = some kv.1) places md →
      Counted Varint places b → ∀ c, Values md c → Meta [[107], [107]] md (b ++ c) :=
    fun md places b h1 h2 h3 c h4 => .mk h1 h2 h3 h4
  have hrec : Recording [[107], [107]] [(eulerSig, [])] oddRec (([1] ++ [105]) ++ (([0] ++ []) ++
      ((([1] ++ ([1] ++ [])) ++ (5 :: ([9] ++ []))) ++ (([1] ++ (_ ++ [])) ++ (([0] ++ []) ++ (([0] ++ []) ++ ([0] ++ []))))))) :=
    .mk (colls := [.euler [114] [(0, ⟨0, 0, 0⟩)]]) (refs := []) (bins := []) (.mk v1) (.mk v0)
      (hmeta [([107], .byte 9)] [1] _ (by simp) (.cons rfl .nil) (.mk v1 (.cons v1 .nil)) _ (.cons (.byte 9) .nil))
      (.mk v1 (.cons hstream .nil)) (.mk v0 .nil) (.mk v0 .nil) v0 .nil
  have hbody : Body [eulerSig] oddRec (_ ++ (_ ++ _)) :=
    .mk (headers := [[]]) rfl (.cons (.mk v0) .nil) (.mk (as := [[107], [107]]) v2 (.cons (.mk v1) (.cons (.mk v1) .nil))) hrec
  have hhead : Head [eulerSig] (2 :: (_ ++ _)) :=
    .mk (by simp [signatures]) (.mk v1 (.cons (.mk v14) .nil)) (.cons v0 .nil)
  have := File.plain (F := F) hhead hbody
  rw [show eulerSig = [114, 101, 99, 111, 108, 117, 100, 101, 46, 101, 117, 108, 101, 114] from sig_euler] at this
  simpa [oddFile] using this

/-- What is read from it. -/
example (F : Flate) (X : Ext) (unmarshal : Bytes → Except Err V1.Recording) :
    ∃ s, read F X unmarshal (losslessEncoders.map Builtin.encoder) (⟨oddFile, .eof⟩ : Flat) = .ok ((oddRec, 81, none), s) :=
  C62_read F X unmarshal losslessEncoders losslessEncoders_cover oddRec 81 oddFile (odd_follows F) (by decide)

/-- C62: the grammar is unambiguous: a file stands for one recording. -/
theorem C62_unambiguous (F : Flate) (rec rec' : Rec) (n n' : Nat) (file : Bytes) (h : File F rec n file)
    (h' : File F rec' n' file) (hn : n ≤ sizeLimit) (hn' : n' ≤ sizeLimit) : rec = rec' ∧ n = n' := by
  let X : Ext := ⟨fun _ => .error .eof, fun _ => none⟩
  obtain ⟨s, h1⟩ := C62_read F X (fun _ => .error .eof) losslessEncoders losslessEncoders_cover rec n file h hn
  obtain ⟨s', h2⟩ := C62_read F X (fun _ => .error .eof) losslessEncoders losslessEncoders_cover rec' n' file h' hn'
  rw [h1] at h2
  simp only [Except.ok.injEq, Prod.mk.injEq] at h2
  exact ⟨h2.1.1, h2.1.2.1⟩

example : ∃ rec n, File storeFlate rec n oddFile ∧ n ≤ sizeLimit := ⟨_, _, odd_follows _, by decide⟩

end Rap
