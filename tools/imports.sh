#!/bin/sh
# Regenerates lean/Verif.lean so that it imports every module under lean/Verif.
cd "$(dirname "$0")/../lean" || exit 1
find Verif -name '*.lean' | sed 's#/#.#g; s#\.lean$##; s#^#import #' | sort > Verif.lean
