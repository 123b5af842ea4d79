import Verif.Model.World

/-! # The texts of errors about configurations — `internal/logger_manager.go:53-103, 142-183` -/

namespace Log4g

/-- The text of an error: what `fmt.Errorf` makes of its names; the errors of creators are passed on as they are.
(internal/logger_manager.go:59, 66, 71, 76, 81-83, 89, 94-96, 148, 157, 161, 170, 176) -/
def MgrErr.text : MgrErr → Str
  | .noLogger n => c!"not find logger.name[" ++ n ++ c!"] config"
  | .noOutput n => c!"not find output.name[" ++ n ++ c!"] config"
  | .noFormat n => c!"not find format.name[" ++ n ++ c!"] config"
  | .noFormatCreator t => c!"not find registered format.type[" ++ t ++ c!"] creator"
  | .formatCreator e => e
  | .noOutputCreator t => c!"not find registered output.type[" ++ t ++ c!"] creator"
  | .outputCreator e => e
  | .dupFormat n => c!"duplication formatter[" ++ n ++ c!"] config"
  | .dupOutput n => c!"duplication output[" ++ n ++ c!"] config"
  | .outputFormatMissing f o => c!"not found format[" ++ f ++ c!"] for output[" ++ o ++ c!"] "
  | .dupLogger n => c!"duplication logger[" ++ n ++ c!"] config"
  | .loggerOutputMissing o l => c!"not found output[" ++ o ++ c!"] for logger[" ++ l ++ c!"] "

end Log4g
