.lake/
build/
*.olean
lake-manifest.json
