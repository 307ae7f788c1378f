"""Bugs in what a panic leaves behind (batch 4). Writes /tmp/mut/muts4.json."""
import json
M = []
def m(within, old, new, edit, props, claim):
    M.append({"id": "U%03d" % (len(M) + 1), "file": "Model/Unwind.lean", "within": within, "old": old, "new": new, "edit": edit, "props": props.split(), "claim": claim})
m("protected def bind", "| .error e => ((m s).1, .error e)", "| .error e => (s, .error e)", "a panic undoes the assignments made before it", "C113", "a panicking LinearDelay::process has stored its sample")
m("def Delay.setDelayBody", "  let ahead ←", "  assign fun s => { s with delay := delay_time }\n  let ahead ←", "delay is assigned before the read position is computed", "C113", "a panicking set_delay leaves the object as it was")
m("def Delay.setMaxDelayBody", "    let n ← eval fun _ => uAdd b delay 1\n    let memory ← eval fun s => vecResize s.memory n zero", "    let n ← eval fun _ => uAdd b delay 1\n    let memory ← eval fun s => vecResize s.memory n zero\n    assign fun s => { s with memory := [] }", "the old memory is dropped before the new one is stored", "", "equivalent, the assignment is overwritten before anything can fail")
m("def Delay.setMaxDelayBody", "    let memory ← eval fun s => vecResize s.memory n zero", "    let old ← eval fun s => .ok s.memory\n    assign fun s => { s with memory := [] }\n    let memory ← eval fun _ => vecResize old n zero", "the memory is taken out before it is resized", "C113", "a panicking set_max_delay leaves the object as it was")
m("def Delay.tapInBody", "  let memory ← eval fun s => idxSet s.memory tap value", "  let out ← eval fun s => .ok s.output\n  assign fun s => { s with output := value }\n  let memory ← eval fun s => idxSet s.memory tap value\n  assign fun s => { s with output := out }", "tap_in uses the output field as scratch space", "C113", "a panicking tap_in leaves the object as it was")
m("def Delay.addToBody", "  let old ← eval fun s => idx s.memory tap", "  let old ← eval fun s => .ok (s.memory.getD tap zero)\n  assign fun s => { s with memory := s.memory ++ [] }", "add_to reads past the end instead of panicking", "", "the write panics in the same cases")
m("def Delay.processBody", "  let memory ← eval fun s => idxSet s.memory s.write_ptr sample\n  assign fun s => { s with memory := memory }\n", "  let memory ← eval fun s => idxSet s.memory s.write_ptr sample\n", "the sample is not stored", "C113", "the transcription agrees with the model")
m("def Delay.processBody", "  let memory ← eval fun s => idxSet s.memory s.write_ptr sample\n", "  let _ ← eval fun s => idx s.memory s.read_ptr\n  let memory ← eval fun s => idxSet s.memory s.write_ptr sample\n", "the read position is checked first", "C113", "the half-done process of a Delay stores its sample")
m("def LinearDelay.processBody", "  let memory ← eval fun s => idxSet s.memory s.write_ptr sample\n", "  let out ← LinearDelay.nextOutBody b\n  let memory ← eval fun s => idxSet s.memory s.write_ptr sample\n", "process computes the output before storing the sample", "C113", "a panicking LinearDelay::process has stored its sample; delay 0 returns the input")
m("def LinearDelay.processBody", "  let w ← eval fun s => uRem s.write_ptr s.memory.length\n  assign fun s => { s with write_ptr := w }\n  let output ← LinearDelay.nextOutBody b\n", "  let output ← LinearDelay.nextOutBody b\n  let w ← eval fun s => uRem s.write_ptr s.memory.length\n  assign fun s => { s with write_ptr := w }\n", "the write position is wrapped after the output is computed", "C113", "after a panic the write position is in range and the taps work")
m("def LinearDelay.processBody", "  let output ← LinearDelay.nextOutBody b\n", "  assign fun s => { s with output := zero }\n  let output ← LinearDelay.nextOutBody b\n", "output is reset before the interpolation", "C113", "last_out is unchanged by a panicking process")
m("def LinearDelay.processBody", "  let output ← LinearDelay.nextOutBody b\n", "  let output ← LinearDelay.nextOutBody b\n  assign fun s => { s with do_next_out := true }\n", "do_next_out is set twice", "", "equivalent")
m("def LinearDelay.nextOutBody", "  if fresh then do\n", "  assign fun s => { s with do_next_out := false }\n  if fresh then do\n", "do_next_out is cleared before the interpolation", "C113", "a panicking next_out leaves the object as it was")
m("def LinearDelay.nextOutBody", "    let m0 ← eval fun s => idx s.memory s.read_ptr\n", "    assign fun s => { s with next_out := zero }\n    let m0 ← eval fun s => idx s.memory s.read_ptr\n", "next_out is reset before the interpolation", "C113", "a panicking next_out leaves the object as it was")
m("def LinearDelay.setDelayBody", "  let m ← eval fun s => uSub b s.memory.length 1\n", "  assign fun s => { s with delay := delay }\n  let m ← eval fun s => uSub b s.memory.length 1\n", "delay is assigned before it is clipped", "C113", "a panicking set_delay leaves the object as it was")
m("def LinearDelay.setDelayBody", "  assign fun s => { s with om_alpha := one -. s.alpha }", "  pure ()", "om_alpha is not updated", "C113", "the transcription agrees with the model")
m("def LinearDelay.setMaxDelayBody", "    let n ← eval fun _ => uAdd b delay 1\n", "    let n ← eval fun _ => uAdd b delay 1\n    assign fun s => { s with write_ptr := s.memory.length }\n", "growth moves the write position to the seam", "C113", "the transcription agrees with the model")
m("def LinearDelay.addToBody", "  let old ← eval fun s => idx s.memory tap\n", "  assign fun s => { s with do_next_out := true }\n  let old ← eval fun s => idx s.memory tap\n", "add_to discards a pending next_out", "C113", "the transcription agrees with the model; a panicking add_to leaves the object as it was")
m("def LinearDelay.clearBody", "  assign fun s => { s with output := zero }", "  assign fun s => { s with output := zero, do_next_out := true }", "clear discards a pending next_out", "C113", "the transcription agrees with the model")
m("def blockLoopBody", "| .error e => (((proc x s).1, x :: xs), .error e)", "| .error e => ((s, x :: xs), .error e)", "the processor of a panicking block is restored", "C113", "the processor is as the panicking process left it")
m("def blockLoopBody", "| .error e => (((proc x s).1, x :: xs), .error e)", "| .error e => (((proc x s).1, xs), .error e)", "the panicking sample disappears from the slice", "C113", "the panicking sample is untouched")
m("def blockLoopBody", "((r.1.1, y :: r.1.2), r.2)", "((r.1.1, (match r.2 with | .ok _ => y | .error _ => x) :: r.1.2), r.2)", "outputs are written back only if the whole block succeeds", "C113", "the samples before the panicking one are replaced by their outputs")
m("def processBlockBody", "    | none => .error .panic", "    | none => .error .diverge", "an empty block hangs", "C113", "the transcription agrees with the model")
m("def Delay.call", "| .clear => do Delay.clearBody; pure .unit", "| .clear => pure .unit", "clear does nothing", "C113", "the transcription agrees with the model")
m("noncomputable def LinearDelay.call", "| .nextOut => do let y ← LinearDelay.nextOutBody b; pure (.sample y)", "| .nextOut => do let y ← eval fun s => (s.nextOut b).map Prod.snd; pure (.sample y)", "next_out does not cache", "C113", "the transcription agrees with the model")
json.dump(M, open("/tmp/mut/muts4.json", "w"), indent=1)
print(len(M))
